import Verif.Portable.Props
/-!
# `lcu.c`: global initialisation and cleanup, with the locks of `time_util.c` and `xlog.c`

Built on the model of the portable handles (C75): the three handle variables of the library are
`g_time_caches[0].rw_lock`, `g_time_caches[1].rw_lock` (read-write lock variables 0 and 1) and `g_xlog_mutex` (mutex
variable 0).  What the system answers (memory, pthread) is an input.  `none` = undefined behaviour (a NULL or freed
lock is used).  `USE_TIME_CACHE` is 1 (time_util.c:12).
-/
namespace Verif.Global
open Verif.Portable

/-- the statics: all lock handles (and the heap), `g_init_times` (src/lcu.c:6, an `unsigned int`) -/
structure G where
  p : St
  times : UInt32

abbrev Res := Option (G × Int)

/-- what the system answers to the three creations or destructions of a call -/
structure Sysv where
  rw0 : Env
  rw1 : Env
  mtx : Env

/-- loop body, src/time/time_util.c:139-143: the answer of `portable_rwlock_init` is ignored -/
def timeInit1 (s : St) (i : Nat) (e : Env) : Option St :=
  if s.var .rwlock i ≠ none then some s
  else (rwlockInit s (some i) e).map (·.1)

/-- `time_util_global_init`, src/time/time_util.c:134-147 -/
def timeInit (s : St) (e : Sysv) : Option (St × Int) := do
  let s ← timeInit1 s 0 e.rw0
  let s ← timeInit1 s 1 e.rw1
  some (s, 0)

/-- loop body, src/time/time_util.c:155-160 -/
def timeCleanup1 (s : St) (i : Nat) (e : Env) : Option St :=
  if s.var .rwlock i = none then some s
  else (rwlockDestroy s (some i) e).map fun x => x.1.setVar .rwlock i none

/-- `time_util_global_cleanup`, src/time/time_util.c:149-164 -/
def timeCleanup (s : St) (e : Sysv) : Option (St × Int) := do
  let s ← timeCleanup1 s 0 e.rw0
  let s ← timeCleanup1 s 1 e.rw1
  some (s, 0)

/-- `xlog_global_init`, src/log/xlog.c:118-126: the answer of `portable_mutex_init` is ignored -/
def xlogInit (s : St) (e : Env) : Option (St × Int) :=
  if s.var .mutex 0 ≠ none then some (s, 1)
  else (mutexInit s (some 0) e).map fun x => (x.1, 0)

/-- `xlog_global_cleanup`, src/log/xlog.c:128-137 -/
def xlogCleanup (s : St) (e : Env) : Option (St × Int) :=
  if s.var .mutex 0 = none then some (s, 1)
  else (mutexDestroy s (some 0) e).map fun x => (x.1.setVar .mutex 0 none, 0)

/-- `ret |= x` for results that are 0 or 1 -/
def orI (a b : Int) : Int := if a = 0 then b else if b = 0 then a else 1

/-- `lcu_global_init`, src/lcu.c:13-23 -/
def lcuInit (g : G) (e : Sysv) : Res :=
  let t := g.times
  let g := { g with times := g.times + 1 }
  if t > 0 then some (g, 0)
  else do
    let (s, r) ← timeInit g.p e
    let (s, r') ← xlogInit s e.mtx
    some ({ g with p := s }, orI r r')

/-- `lcu_global_cleanup`, src/lcu.c:25-35 -/
def lcuCleanup (g : G) (e : Sysv) : Res :=
  if g.times = 0 then some (g, 0)
  else
    let g := { g with times := g.times - 1 }
    if g.times > 0 then some (g, 0)
    else do
      let (s, r) ← xlogCleanup g.p e.mtx
      let (s, r') ← timeCleanup s e
      some ({ g with p := s }, orI r r')

/-- the lock around a call of the logger, src/log/xlog.c:101-102 (used in every function of xlog.c) -/
def useXlog (s : St) (e f : Env) : Option St := do
  let s ← (if s.var .mutex 0 ≠ none then (mutexLock s (some 0) e).map (·.1) else some s)
  if s.var .mutex 0 ≠ none then (mutexUnlock s (some 0) f).map (·.1) else some s

/-- the lock around an access to time cache `i`, src/time/time_util.c:20-22, 250-281; `wr`: for writing.
`portable_rwlock_*` do nothing when the handle is NULL. -/
def useTime (s : St) (i : Nat) (wr : Bool) (e f : Env) : Option St := do
  let (s, _) ← (if wr then rwlockWrlock s (some i) e else rwlockRdlock s (some i) e)
  (rwlockUnlock s (some i) f).map (·.1)

/-- calls: `lcu_global_init`, `lcu_global_cleanup`; a call that takes the logger's lock, one that takes the lock of
a time cache; and the module functions called by themselves (`LOG_INIT` / `LOG_DEINIT`,
inc/log/logger_facade_xlog.h:7-8, do so) -/
inductive Op where
  | init (e : Sysv) | cleanup (e : Sysv)
  | log (e f : Env) | time (i : Fin 2) (wr : Bool) (e f : Env)
  | xlogInit (e : Env) | xlogCleanup (e : Env)
  | timeInit (e : Sysv) | timeCleanup (e : Sysv)

/-- one call -/
def exec (g : G) : Op → Res
  | .init e => lcuInit g e
  | .cleanup e => lcuCleanup g e
  | .log e f => (useXlog g.p e f).map fun s => ({ g with p := s }, 0)
  | .time i wr e f => (useTime g.p i.1 wr e f).map fun s => ({ g with p := s }, 0)
  | .xlogInit e => (Global.xlogInit g.p e).map fun x => ({ g with p := x.1 }, x.2)
  | .xlogCleanup e => (Global.xlogCleanup g.p e).map fun x => ({ g with p := x.1 }, x.2)
  | .timeInit e => (Global.timeInit g.p e).map fun x => ({ g with p := x.1 }, x.2)
  | .timeCleanup e => (Global.timeCleanup g.p e).map fun x => ({ g with p := x.1 }, x.2)

/-- a history of calls, one after the other; the answers, oldest first -/
def run (g : G) : List Op → Option (G × List Int)
  | [] => some (g, [])
  | o :: os => (exec g o).bind fun (g, r) => (run g os).map fun (g, rs) => (g, r :: rs)

end Verif.Global
