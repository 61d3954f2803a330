/-!
# The clocks of src/time/time_util.c (40-130, 323-375)

`gettimeofday` and `time_util_query_performance_ms` of the Windows build, `time_util_current_ms` of both builds.
`long` has 32 bits on Windows and 64 on the POSIX systems.
-/
namespace Verif.Clock

/-- time_util.c 112-128: `gettimeofday` (Windows) when the system's clock shows `ft` (100 ns since 1601):
`tv_sec`, `tv_usec` -/
def timeval (ft : BitVec 64) : Int × Int :=
  let u := ft - 116444736000000000#64
  (((u / 10000000#64).truncate 32).toInt, (((u % 10000000#64) / 10#64).truncate 32).toInt)

/-- time_util.c 323-328: `time_util_current_ms` for the time of day `sec`, `usec` -/
def currentMs (sec usec : Int) : BitVec 64 :=
  BitVec.ofInt 64 sec * 1000#64 + BitVec.ofInt 64 usec / 1000#64

/-- time_util.c 348-350: `g_cached_milli_perf_freq` for the frequency the system reports (`LONGLONG`) -/
def milliFreq (freq : BitVec 64) : BitVec 64 := freq.sdiv 1000#64

/-- time_util.c 366-369: `time_util_query_performance_ms` (Windows) for the counter `c`, with what
`g_get_milli_perf_freq` answered; `none`: division by zero -/
def perfMs (c q : BitVec 64) : Option (BitVec 64) := if q = 0#64 then none else some (c / q)

/-- time_util.c 371: `time_util_query_performance_ms` (POSIX) -/
def perfMsPosix (sec usec : Int) : BitVec 64 := currentMs sec usec

/-! ### The function pointer `g_get_system_time` (64, 71-102, 119), called from several threads -/

/-- values of the pointer -/
inductive Fn where
  | init | null | precise | coarse
  deriving DecidableEq

/-- what the system has: the module kernel32.dll, and in it `GetSystemTimePreciseAsFileTime` -/
structure Win where
  kernel : Bool
  proc : Bool

inductive Pc where
  /-- in `gettimeofday`, before the load of the pointer (119) -/
  | load
  /-- the pointer was loaded, before the call -/
  | call (p : Fn)
  /-- in `init_gettimeofday`, before 86-88 -/
  | look
  /-- before the store of the fall-back (99) -/
  | fall
  /-- before the load of the pointer (102) -/
  | load2
  /-- the time was read with this function -/
  | done (p : Fn)
  /-- a call through NULL -/
  | crash
  deriving DecidableEq

structure Sys where
  g : Fn
  pc : Nat → Pc

def Sys.init : Sys := ⟨.init, fun _ => .load⟩

def upd (f : Nat → Pc) (t : Nat) (p : Pc) : Nat → Pc := fun u => if u = t then p else f u

/-- one step of thread `t` -/
def step (w : Win) (s : Sys) (t : Nat) : Sys :=
  match s.pc t with
  | .load => { s with pc := upd s.pc t (.call s.g) }
  | .call .null => { s with pc := upd s.pc t .crash }
  | .call .init => { s with pc := upd s.pc t .look }
  | .call p => { s with pc := upd s.pc t (.done p) }
  | .look =>
    if w.kernel then
      if w.proc then ⟨.precise, upd s.pc t .load2⟩ else ⟨.null, upd s.pc t .fall⟩
    else { s with pc := upd s.pc t .fall }
  | .fall => ⟨.coarse, upd s.pc t .load2⟩
  | .load2 => { s with pc := upd s.pc t (.call s.g) }
  | .done p => { s with pc := upd s.pc t (.done p) }
  | .crash => { s with pc := upd s.pc t .crash }

/-- a schedule: which thread takes the next step -/
def run (w : Win) (s : Sys) (sched : List Nat) : Sys := sched.foldl (step w) s

/-! ### The pointer `g_get_milli_perf_freq` (334-355, 366), called from several threads -/

inductive PPc where
  /-- before the load of the pointer (366) -/
  | load
  /-- in `init_get_milli_perf_freq`, before the store of the cached value (350) -/
  | query
  /-- before the store of the pointer (353) -/
  | publish
  /-- before the load of the pointer (354) -/
  | load2
  /-- in `get_cached_performance_freq`, before the load of the cached value (338) -/
  | read
  /-- what was answered -/
  | done (q : BitVec 64)
  deriving DecidableEq

structure PSys where
  /-- the pointer is `get_cached_performance_freq` -/
  ready : Bool
  cached : BitVec 64
  pc : Nat → PPc

def PSys.init : PSys := ⟨false, 0#64, fun _ => .load⟩

def pupd (f : Nat → PPc) (t : Nat) (p : PPc) : Nat → PPc := fun u => if u = t then p else f u

def pstep (freq : BitVec 64) (s : PSys) (t : Nat) : PSys :=
  match s.pc t with
  | .load => { s with pc := pupd s.pc t (if s.ready then .read else .query) }
  | .query => { s with cached := milliFreq freq, pc := pupd s.pc t .publish }
  | .publish => { s with ready := true, pc := pupd s.pc t .load2 }
  | .load2 => { s with pc := pupd s.pc t (if s.ready then .read else .query) }
  | .read => { s with pc := pupd s.pc t (.done s.cached) }
  | .done q => { s with pc := pupd s.pc t (.done q) }

def prun (freq : BitVec 64) (s : PSys) (sched : List Nat) : PSys := sched.foldl (pstep freq) s

end Verif.Clock
