import Verif.Strings.Model
/-!
# Model of `/repo/src/time/time_util.c`

`time_t` is 64 bits, `int` 32 bits.  `none` is undefined behaviour (overflow of `int`, a field out of `strftime`'s
range, an access outside an object).  Not modelled: the Windows `gettimeofday`, `time_util_zone_offset_seconds_to_utc`
(library calls), `time_util_current_ms`, the performance counter; `time_util_global_init` has been called (the locks
exist), and the two critical sections of `get_time_str` are atomic (they are bracketed by a read-write lock).
-/
namespace Verif.TimeUtil

/-- The fields of `struct tm` that are assigned. -/
structure Tm where
  sec : Int
  min : Int
  hour : Int
  mday : Int
  mon : Int
  year : Int
deriving DecidableEq

/-- Conversion to `int`. -/
def toInt (x : Int) : Int := (x + 2147483648) % 4294967296 - 2147483648

/-- The value of an `int` expression exists. -/
def fits (x : Int) : Bool := decide (-2147483648 ≤ x) && decide (x < 2147483648)

/-- time_util.c 200-209: from the days since 1970-01-01: (month day, month, year); C's division truncates. -/
def days2date (days : Int) : Option (Int × Int × Int) :=
  let a := days + 2472632
  let b := (a * 4 + 3).tdiv 146097
  let c := (-b * 146097).tdiv 4 + a
  let d := (c * 4 + 3).tdiv 1461
  let e := (-d * 1461).tdiv 4 + c
  let m := (5 * e + 2).tdiv 153
  let mday := (-(153 * m + 2)).tdiv 5 + e + 1
  let mon := (-m).tdiv 10 * 12 + m + 2
  let year := b * 100 + d - 6700 + m.tdiv 10
  if [a, a * 4, a * 4 + 3, b * 146097, c, c * 4 + 3, d * 1461, e, 5 * e + 2, 153 * m + 2, mday, mon, b * 100 + d,
      year].all fits then some (mday, mon, year) else none

/-- time_util.c 187-211 `time_util_fast_second2date`; the result is `*lt`. -/
def second2date (sec zone : Int) : Option Tm :=
  let minutes := (toInt sec).tdiv 60
  let hours := minutes.tdiv 60 + zone
  if fits hours then
    (days2date (hours.tdiv 24)).map fun (mday, mon, year) =>
      { sec := sec.tmod 60, min := minutes.tmod 60, hour := hours.tmod 24, mday := mday, mon := mon, year := year }
  else none

/-- A two-digit number as `strftime` prints it, for a field in its range. -/
def two (x lo hi : Int) : Option (List Byte) :=
  if lo ≤ x ∧ x ≤ hi then some [UInt8.ofNat (48 + x.toNat / 10), UInt8.ofNat (48 + x.toNat % 10)] else none

/-- The two formats (15, 16); 19: `GET_TIME_FORMAT_TYPE`. -/
inductive Fmt
  | stamp
  | file
deriving DecidableEq

/-- `strftime` with the format (15, 16). -/
def strftime (f : Fmt) (t : Tm) : Option (List Byte) := do
  let mo ← two (t.mon + 1) 1 12
  let d ← two t.mday 1 31
  let h ← two t.hour 0 23
  let mi ← two t.min 0 59
  let s ← two t.sec 0 60
  match f with
  | .stamp => return mo ++ [45] ++ d ++ [32] ++ h ++ [58] ++ mi ++ [58] ++ s
  | .file => return mo ++ d ++ h ++ mi ++ s

/-- time_util.c 213-220 `format_time`: the object `str` afterwards and the length. -/
def formatTime (str : Mem) (sec : Int) (f : Fmt) (zone : Int) : Option (Mem × Nat) := do
  let t ← second2date sec zone
  let s ← strftime f t
  let str ← str.store 0 (s ++ [0])
  return (str, s.length)

/-- time_util.c 228-236: the loop filling the digits `i-1 … 0` of `buffer` (at `off`). -/
def millisLoop (m : Mem) (off : Nat) : (i : Nat) → (num : Nat) → Option Mem
  | 0, _ => some m
  | i + 1, num => do
    let m ← m.store (off + i) [UInt8.ofNat (48 + num % 10)]
    millisLoop m off i (num / 10)

/-- time_util.c 222-239 `print_millisec` at `str + off`. -/
def printMillisec (m : Mem) (off : Nat) (num : Nat) : Option Mem := do
  let m ← m.store off [46]
  let m ← millisLoop m (off + 1) 3 num
  m.store (off + 4) [0]

/-- `(unsigned int)(tv_usec / 1000)`. -/
def millis (usec : Int) : Nat := (usec.tdiv 1000 % 4294967296).toNat

/-- time_util.c 262-266 / 284-289: formatting without the cache. -/
def fresh (str : Mem) (sec usec : Int) (f : Fmt) (zone : Int) : Option (Mem × Int) := do
  let (str, n) ← formatTime str sec f zone
  let str ← printMillisec str n (millis usec)
  return (str, (n : Int) + 4)

/-- time_util.c 296-299, 308-311 `time_util_get_time_str`, `time_util_get_time_str_for_file_name`. -/
def getTimeStr (f : Fmt) (sec usec : Int) (str : Mem) (zone : Int) : Option (Mem × Int) := fresh str sec usec f zone

/-- time_util.c 24-30 `time_cache_t` without its lock. -/
structure Cache where
  zone : Int
  sec : Int
  usec : Int
  text : Mem

/-- time_util.c 32-36: the initial caches (zero-initialised). -/
def Cache.init : Cache := { zone := 0, sec := 0, usec := 0, text := List.replicate 24 0 }

/-- time_util.c 250-260: the read section and the patching of the milliseconds after a hit.
Inner `none`: the cache was missed. -/
def lookup (c : Cache) (str : Mem) (sec usec : Int) (zone : Int) : Option (Option (Mem × Int)) :=
  if c.zone = zone ∧ c.sec = sec then do
    let (str, n) ← Strings.strlcpy str c.text 24
    if c.usec ≠ usec then
      if n < 4 then none
      else
        let str ← printMillisec str (n - 4) (millis usec)
        return some (str, (n : Int))
    else return some (str, (n : Int))
  else some none

/-- time_util.c 269-278: the write section. -/
def update (c : Cache) (str : Mem) (sec usec : Int) (zone : Int) : Option Cache :=
  if c.sec ≠ sec then do
    let (text, _) ← Strings.strlcpy c.text str 24
    return { zone := zone, sec := sec, usec := usec, text := text }
  else some c

/-! ### Many threads calling the `_current` functions (301-306, 313-318) -/

/-- A call: what `gettimeofday` returned, the format, the zone and the caller's array. -/
structure Call where
  fmt : Fmt
  sec : Int
  usec : Int
  zone : Int
  str : Mem

/-- Where a thread is. -/
inductive Phase
  /-- before its read section -/
  | start (c : Call)
  /-- missed; formatted its text, before its write section -/
  | missed (c : Call) (str : Mem) (ret : Int)
  /-- returned -/
  | done (c : Call) (str : Mem) (ret : Int)

/-- The shared caches and the threads. -/
structure Sys where
  caches : Fmt → Cache
  threads : List Phase

/-- One atomic step of a thread; `none`: undefined behaviour. -/
def stepPhase (caches : Fmt → Cache) : Phase → Option ((Fmt → Cache) × Phase)
  | .start c => do
    let r ← lookup (caches c.fmt) c.str c.sec c.usec c.zone
    match r with
    | some (str, n) => return (caches, .done c str n)
    | none =>
      let (str, n) ← fresh c.str c.sec c.usec c.fmt c.zone
      return (caches, .missed c str n)
  | .missed c str n => do
    let k ← update (caches c.fmt) str c.sec c.usec c.zone
    return (fun f => if f = c.fmt then k else caches f, .done c str n)
  | .done c str n => some (caches, .done c str n)

/-- Thread `i` makes a step. -/
def step (s : Sys) (i : Nat) : Option Sys :=
  match s.threads[i]? with
  | none => some s
  | some p => (stepPhase s.caches p).map fun (k, p) => { caches := k, threads := s.threads.set i p }

/-- A schedule. -/
def run (s : Sys) : List Nat → Option Sys
  | [] => some s
  | i :: is => (step s i).bind fun s => run s is

end Verif.TimeUtil
