/-!
# Model of the reader/writer lock of the simple Windows pthread layer

`/repo/src/thread/pthread_win_simple/pthread_win_simple.c`, lines 254-463.

Any number `N` of threads.  The mutex `m_mutex` protects every access to the counters and events
except the two `assert`s, so a critical section is one step (the threads that wait for the mutex
are those whose next step is that section); `WaitForMultipleObjects(…, TRUE, …)` acquires the mutex
only at a moment when the event is set as well, and that is the guard of the step.  The events are
manual-reset (CreateEvent(NULL, TRUE, TRUE, NULL)): waiting does not reset them.

Simplifications: waits do not fail; counters do not overflow; only holders call `unlock`; no
`destroy` while the lock is in use.
-/
namespace Verif.Rwlock

/-- Where a thread stands. -/
inductive Pc where
  | idle
  /-- in `rdlock`, waiting for the mutex and `m_readEvent` (342) -/
  | rwait
  /-- in `rdlock`, the mutex released, about to evaluate `assert(m_writers == 0)` (349) -/
  | rchk
  /-- `rdlock` has returned 0 -/
  | rheld
  /-- in `unlock` of a reader, waiting for the mutex (450) -/
  | runl
  /-- in `wrlock`, waiting for the mutex in `pri_pthread_rwlock_add_writer` (366) -/
  | wadd
  /-- in `wrlock`, waiting for the mutex and `m_writeEvent` (418) -/
  | wwait
  /-- in `wrlock`, the mutex released, about to evaluate `assert(m_writers == 1)` (428) -/
  | wchk
  /-- `wrlock` has returned 0 -/
  | wheld
  /-- in `unlock` of the writer, waiting for the mutex -/
  | wunl
  /-- an assertion failed -/
  | failed
  deriving DecidableEq, Repr

/-- `struct pthread_rwlock_s` (inc/thread/pthread_win_simple/pthread_win_simple.h:51-59) and the threads. -/
structure Sys where
  /-- `m_readEvent` is set -/
  rd : Bool
  /-- `m_writeEvent` is set -/
  wr : Bool
  /-- `m_readers` -/
  readers : Nat
  /-- `m_writers` -/
  writers : Nat
  /-- `m_writersWaiting` -/
  ww : Nat
  th : Nat → Pc

/-- `pthread_rwlock_init` (254-280): counters 0, both events set. -/
def Sys.init : Sys := ⟨true, true, 0, 0, 0, fun _ => .idle⟩

/-- Move thread `t`. -/
def Sys.go (s : Sys) (t : Nat) (c : Pc) : Sys := { s with th := fun k => if k = t then c else s.th k }

/-- The next step of a thread inside a call (`none`: it has to wait, or is not in a call). -/
def run (s : Sys) (t : Nat) : Option Sys :=
  match s.th t with
  | .idle => none
  | .rheld => none
  | .wheld => none
  | .failed => none
  -- 342-348
  | .rwait =>
    if s.rd then some ({ s with readers := s.readers + 1, wr := false }.go t .rchk) else none
  | .rchk => if s.writers = 0 then some (s.go t .rheld) else some (s.go t .failed)
  -- 366-372
  | .wadd =>
    some ({ s with ww := s.ww + 1, rd := if s.ww + 1 = 1 then false else s.rd }.go t .wwait)
  -- 418-427
  | .wwait =>
    if s.wr then
      some ({ s with ww := s.ww - 1, readers := s.readers + 1, writers := s.writers + 1, rd := false,
                     wr := false }.go t .wchk)
    else none
  | .wchk => if s.writers = 1 then some (s.go t .wheld) else some (s.go t .failed)
  -- 450-457
  | .runl | .wunl =>
    some ({ s with writers := 0, rd := if s.ww = 0 then true else s.rd, readers := s.readers - 1,
                   wr := if s.readers - 1 = 0 then true else s.wr }.go t .idle)

/-- Calls made by the `N` threads, and their steps. -/
inductive Step (N : Nat) : Sys → Sys → Prop where
  | run {s s' : Sys} (t : Nat) (ht : t < N) (h : run s t = some s') : Step N s s'
  | rdlock {s : Sys} (t : Nat) (ht : t < N) (h : s.th t = .idle) : Step N s (s.go t .rwait)
  | wrlock {s : Sys} (t : Nat) (ht : t < N) (h : s.th t = .idle) : Step N s (s.go t .wadd)
  | rdunlock {s : Sys} (t : Nat) (ht : t < N) (h : s.th t = .rheld) : Step N s (s.go t .runl)
  | wrunlock {s : Sys} (t : Nat) (ht : t < N) (h : s.th t = .wheld) : Step N s (s.go t .wunl)

/-- Reachable states. -/
inductive Reach (N : Nat) : Sys → Prop where
  | init : Reach N Sys.init
  | step {s s' : Sys} : Reach N s → Step N s s' → Reach N s'

/-! ## First use of a statically initialised lock -/

/-- Where a thread stands in the initialisation (325-341, 308-323; the same code is used by
`pthread_mutex_lock`, 120-146). -/
inductive LPc where
  /-- about to compare `*rwlock` with `PTHREAD_RWLOCK_INITIALIZER` (333) -/
  | start
  /-- in `ptw32_mcs_lock_acquire` (312) -/
  | want
  /-- holds the lock, about to compare again (313) -/
  | check
  /-- about to release (321) -/
  | leave
  /-- about to load `rwl = *rwlock` (340) -/
  | load
  /-- uses the object with this number -/
  | use (o : Nat)
  deriving DecidableEq, Repr

/-- `*rwlock` (`none` is `PTHREAD_RWLOCK_INITIALIZER`), the number of objects created, the holder of
`ptw32_rwlock_test_init_lock` (taken to be a mutual exclusion lock: `Verif.Mcs`), the threads. -/
structure LSys where
  var : Option Nat
  made : Nat
  own : Option Nat
  th : Nat → LPc

def LSys.init : LSys := ⟨none, 0, none, fun _ => .start⟩

def LSys.go (s : LSys) (t : Nat) (c : LPc) : LSys :=
  { s with th := fun k => if k = t then c else s.th k }

/-- Steps of the initialisation; `pthread_rwlock_init` succeeds. -/
inductive LStep : LSys → LSys → Prop where
  | seen {s : LSys} (t o : Nat) (h : s.th t = .start) (hv : s.var = some o) : LStep s (s.go t .load)
  | unset {s : LSys} (t : Nat) (h : s.th t = .start) (hv : s.var = none) : LStep s (s.go t .want)
  | lock {s : LSys} (t : Nat) (h : s.th t = .want) (ho : s.own = none) :
      LStep s ({ s with own := some t }.go t .check)
  | create {s : LSys} (t : Nat) (h : s.th t = .check) (hv : s.var = none) :
      LStep s ({ s with var := some s.made, made := s.made + 1 }.go t .leave)
  | found {s : LSys} (t o : Nat) (h : s.th t = .check) (hv : s.var = some o) : LStep s (s.go t .leave)
  | unlock {s : LSys} (t : Nat) (h : s.th t = .leave) : LStep s ({ s with own := none }.go t .load)
  | load {s : LSys} (t o : Nat) (h : s.th t = .load) (hv : s.var = some o) : LStep s (s.go t (.use o))

inductive LReach : LSys → Prop where
  | init : LReach LSys.init
  | step {s s' : LSys} : LReach s → LStep s s' → LReach s'

end Verif.Rwlock
