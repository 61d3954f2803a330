import Verif.TimeUtil.Model
/-!
# Model of the cached time strings, one memory access at a time

`/repo/src/time/time_util.c`, lines 240-294 (`get_time_str` with `use_cache`), as executed by any number of threads, in any
interleaving of single accesses to the shared cache.  (`Verif.TimeUtil` takes the two critical sections as single steps.)

Simplifications: one cache (the two formats use different ones and do not meet); what the lock guarantees is its contract
(C56): nobody enters beside a writer, no writer enters beside anybody; `tval = *tval_p` stores the seconds first;
sequentially consistent memory.
-/
namespace Verif.TimeMt
open Verif.TimeUtil

/-- Where a thread is (comments: the line it is about to execute). -/
inductive Pc where
  /-- 250: `TIME_UTIL_RD_LOCK` -/
  | start (c : Call)
  /-- 251: about to load `timezone_hour` -/
  | rdZone (c : Call)
  /-- 251: about to load `tval.tv_sec` -/
  | rdSec (c : Call)
  /-- 253: in `strlcpy(str, format_cache)`, at byte `i` -/
  | copy (c : Call) (i : Nat) (str : Mem)
  /-- 254: about to load `tval.tv_usec` -/
  | rdUsec (c : Call) (str : Mem) (n : Nat)
  /-- 255-260: a hit, about to unlock -/
  | hit (c : Call) (str : Mem) (n : Nat) (patch : Bool)
  /-- 264-270: a miss, about to unlock and to format the text itself -/
  | miss (c : Call)
  /-- 273: `TIME_UTIL_WR_LOCK` -/
  | want (c : Call) (str : Mem) (ret : Int)
  /-- 274: about to load `tval.tv_sec` -/
  | check (c : Call) (str : Mem) (ret : Int)
  /-- 277: in `strlcpy(format_cache, str)`, at byte `i` -/
  | fill (c : Call) (str : Mem) (ret : Int) (i : Nat)
  /-- 278: about to store `timezone_hour` -/
  | wrZone (c : Call) (str : Mem) (ret : Int)
  /-- 279: about to store `tval.tv_sec` -/
  | wrSec (c : Call) (str : Mem) (ret : Int)
  /-- 279: about to store `tval.tv_usec` -/
  | wrUsec (c : Call) (str : Mem) (ret : Int)
  /-- 281: about to unlock -/
  | leave (c : Call) (str : Mem) (ret : Int)
  /-- returned -/
  | done (c : Call) (str : Mem) (ret : Int)

/-- The byte `b` at position `i` of a `strlcpy(dst, src, 24)`, src/mem/strings.c:42-63: copied while there is room, then the
terminator is stored and the source only read on. -/
def cpy (dst : Mem) (b : Byte) (i : Nat) : Option Mem :=
  if i < 23 then dst.store i [b] else if i = 23 then dst.store i [0] else some dst

/-- The next step of a thread on the cache `k`; `none`: undefined behaviour (or nothing left to do). Between the accesses to the
cache the thread's own work is done in the same step. -/
def act (k : Cache) : Pc → Option (Cache × Pc)
  | .start c => some (k, .rdZone c)
  | .rdZone c => some (k, if k.zone = c.zone then .rdSec c else .miss c)
  | .rdSec c => some (k, if k.sec = c.sec then .copy c 0 c.str else .miss c)
  | .copy c i str => do
    let b ← k.text[i]?
    let str ← cpy str b i
    some (k, if b = 0 then .rdUsec c str i else .copy c (i + 1) str)
  | .rdUsec c str n => some (k, .hit c str n (decide (k.usec ≠ c.usec)))
  | .hit c str n patch =>
    if patch = true then
      if n < 4 then none
      else (printMillisec str (n - 4) (millis c.usec)).map fun str => (k, .done c str n)
    else some (k, .done c str n)
  | .miss c => (fresh c.str c.sec c.usec c.fmt c.zone).map fun (str, ret) => (k, .want c str ret)
  | .want c str ret => some (k, .check c str ret)
  | .check c str ret => some (k, if k.sec ≠ c.sec then .fill c str ret 0 else .leave c str ret)
  | .fill c str ret i => do
    let b ← str[i]?
    let text ← cpy k.text b i
    some ({ k with text := text }, if b = 0 then .wrZone c str ret else .fill c str ret (i + 1))
  | .wrZone c str ret => some ({ k with zone := c.zone }, .wrSec c str ret)
  | .wrSec c str ret => some ({ k with sec := c.sec }, .wrUsec c str ret)
  | .wrUsec c str ret => some ({ k with usec := c.usec }, .leave c str ret)
  | .leave c str ret => some (k, .done c str ret)
  | .done _ _ _ => none

/-- holds the lock for reading -/
def Pc.reads : Pc → Bool
  | .rdZone _ | .rdSec _ | .copy _ _ _ | .rdUsec _ _ _ | .hit _ _ _ _ | .miss _ => true
  | _ => false

/-- holds the lock for writing -/
def Pc.writes : Pc → Bool
  | .check _ _ _ | .fill _ _ _ _ | .wrZone _ _ _ | .wrSec _ _ _ | .wrUsec _ _ _ | .leave _ _ _ => true
  | _ => false

structure Sys where
  cache : Cache
  ths : List Pc

/-- Whether a thread may take its step. `lk`: the lock exists; otherwise `portable_rwlock_*` answers -1 at once and the macros
(20-22) ignore it. -/
def may (lk : Bool) (ths : List Pc) : Pc → Bool
  | .start _ => !lk || ths.all fun q => !q.writes
  | .want _ _ _ => !lk || ths.all fun q => !q.writes && !q.reads
  | .done _ _ _ => false
  | _ => true

/-- A step of some thread; `none`: undefined behaviour. -/
inductive Step (lk : Bool) : Sys → Option Sys → Prop where
  | mk {s : Sys} {i : Nat} {p : Pc} (hi : s.ths[i]? = some p) (hm : may lk s.ths p = true) :
      Step lk s ((act s.cache p).map fun (k, q) => ⟨k, s.ths.set i q⟩)

/-- Executions of `n` steps. -/
inductive Steps (lk : Bool) : Nat → Sys → Sys → Prop where
  | refl (s : Sys) : Steps lk 0 s s
  | step {n : Nat} {s t u : Sys} : Steps lk n s t → Step lk t (some u) → Steps lk (n + 1) s u

/-- Every thread is about to make its call; the cache as it is initially (32-36). -/
def Sys.start (calls : List Call) : Sys := ⟨Cache.init, calls.map .start⟩

end Verif.TimeMt
