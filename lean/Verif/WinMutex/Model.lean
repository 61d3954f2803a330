/-!
# Model of the mutexes of the simple Windows pthread layer, and of the initialisation of its reader/writer locks

`/repo/src/thread/pthread_win_simple/pthread_win_simple.c`, lines 90-164 (`pthread_mutex_*`) and 254-280
(`pthread_rwlock_init`).

Any number of threads lock and unlock one mutex variable that was initialised statically; every access to the variable is a step.
`ptw32_mutex_test_init_lock` is taken to be a mutual exclusion lock (C55), the critical section object of Windows a recursive
one, `calloc` may fail.  Simplifications: sequentially consistent memory; `InitializeCriticalSection` does not fail;
`pthread_mutex_destroy` is not called while the mutex is in use (the API forbids it), so it is modelled on its own.
-/
namespace Verif.WinMutex

/-- `EINVAL`, `ENOMEM` (errno.h of Windows) -/
def EINVAL : Int := 22
def ENOMEM : Int := 12

/-- What a `pthread_mutex_t` or `pthread_rwlock_t` variable holds: NULL, a static initialiser
(`(size_t)-k`, inc/thread/pthread_win_simple/pthread_win_simple.h:68-70 and 80), or the address of an object. -/
inductive Var where
  | null
  | stat (k : Nat)
  | obj (a : Nat)
  deriving DecidableEq, Repr

/-- Where a thread stands. -/
inductive Pc where
  /-- in no call -/
  | idle
  /-- `pthread_mutex_lock`, pthread_win_simple.c:124: about to compare `*mutex` with NULL -/
  | lNull
  /-- 128: about to compare `*mutex` with the initialisers -/
  | lCmp
  /-- 131: in `ptw32_mcs_lock_acquire` -/
  | lWant
  /-- 132-139: holds that lock, about to look at `*mutex` again -/
  | lChk
  /-- 134: in `pthread_mutex_init`, 90-106 -/
  | lMake
  /-- 140-144: about to release; `ret` is `r` -/
  | lLeave (r : Int)
  /-- 146: about to load `mx = *mutex` -/
  | lLoad
  /-- 147: in `EnterCriticalSection` of the object `o` -/
  | lEnter (o : Nat)
  /-- `pthread_mutex_lock` returns `r` -/
  | lRet (r : Int)
  /-- `pthread_mutex_unlock`, 153: about to compare `*mutex` with NULL -/
  | uNull
  /-- 157: about to compare `*mutex` with `PTHREAD_MUTEX_INITIALIZER` -/
  | uCmp
  /-- 161: about to load `mx = *mutex` -/
  | uLoad
  /-- 162: in `LeaveCriticalSection` of the object `o` -/
  | uLeave (o : Nat)
  /-- `pthread_mutex_unlock` returns `r` -/
  | uRet (r : Int)
  deriving DecidableEq, Repr

/-- The variable, the live critical sections (owner and recursion count), how many were made, the holder of
`ptw32_mutex_test_init_lock`, the threads, and (ghost) how often each thread holds the mutex: successful `lock`s that have
returned minus `unlock`s that were called. -/
structure Sys where
  var : Var
  objs : Nat → Option (Option Nat × Nat)
  made : Nat
  own : Option Nat
  th : Nat → Pc
  held : Nat → Nat

/-- A static mutex nobody has used. -/
def Sys.init (k : Nat) : Sys := ⟨.stat k, fun _ => none, 0, none, fun _ => .idle, fun _ => 0⟩

def Sys.go (s : Sys) (t : Nat) (c : Pc) : Sys := { s with th := fun k => if k = t then c else s.th k }

def Sys.setObj (s : Sys) (o : Nat) (x : Option Nat × Nat) : Sys :=
  { s with objs := fun k => if k = o then some x else s.objs k }

/-- Whether thread `t` can take its next step: 131 and 147 wait (`ptw32_mcs_lock_acquire`, `EnterCriticalSection`). -/
def may (s : Sys) (t : Nat) : Bool :=
  match s.th t with
  | .idle => false
  | .lWant => s.own.isNone
  | .lEnter o => match s.objs o with
    | some (some u, _) => decide (u = t)
    | _ => true
  | _ => true

/-- The next step of thread `t` in `pthread_mutex_lock` (121-149, with `pthread_mutex_init`, 90-106) or
`pthread_mutex_unlock` (151-164); `mem`: `calloc` succeeds. `none`: undefined behaviour. -/
def act (s : Sys) (t : Nat) (mem : Bool) : Option Sys :=
  match s.th t with
  | .idle => none
  | .lNull => some (s.go t (if s.var = .null then .lRet EINVAL else .lCmp))
  | .lCmp => some (s.go t (match s.var with | .stat _ => .lWant | _ => .lLoad))
  | .lWant => some ({ s with own := some t }.go t .lChk)
  | .lChk => some (s.go t (match s.var with | .stat _ => .lMake | .null => .lLeave EINVAL | .obj _ => .lLeave 0))
  | .lMake =>
    if mem = true then some ({ s.setObj s.made (none, 0) with
      var := .obj s.made
      made := s.made + 1 }.go t (.lLeave 0))
    else some (s.go t (.lLeave ENOMEM))
  | .lLeave r => some ({ s with own := none }.go t (if r ≠ 0 then .lRet r else .lLoad))
  | .lLoad => match s.var with
    | .obj o => some (s.go t (.lEnter o))
    | _ => none
  | .lEnter o => match s.objs o with
    | some (_, n) => some ({ s.setObj o (some t, n + 1) with
        held := fun k => if k = t then s.held t + 1 else s.held k }.go t (.lRet 0))
    | none => none
  | .lRet _ => some (s.go t .idle)
  | .uNull => some (s.go t (if s.var = .null then .uRet EINVAL else .uCmp))
  | .uCmp => some (s.go t (if s.var = .stat 1 then .uRet 0 else .uLoad))
  | .uLoad => match s.var with
    | .obj o => some (s.go t (.uLeave o))
    | _ => none
  | .uLeave o => match s.objs o with
    | some (some u, n) => if u = t then
        some ((s.setObj o (if n = 1 then (none, 0) else (some t, n - 1))).go t (.uRet 0))
      else none
    | _ => none
  | .uRet _ => some (s.go t .idle)

/-- Calls and steps. Only a thread that holds the mutex calls `unlock`. -/
inductive Step : Sys → Option Sys → Prop where
  | lock {s : Sys} (t : Nat) (h : s.th t = .idle) : Step s (some (s.go t .lNull))
  | unlock {s : Sys} (t : Nat) (h : s.th t = .idle) (hh : 0 < s.held t) :
      Step s (some ({ s with held := fun k => if k = t then s.held t - 1 else s.held k }.go t .uNull))
  | run {s : Sys} (t : Nat) (mem : Bool) (h : may s t = true) : Step s (act s t mem)

inductive Reach (k : Nat) : Sys → Prop where
  | init : Reach k (Sys.init k)
  | step {s s' : Sys} : Reach k s → Step s (some s') → Reach k s'

/-- `pthread_mutex_destroy`, pthread_win_simple.c:108-119: the variable and the answer; `none`: undefined behaviour (the object of a variable that
holds an initialiser does not exist). -/
def destroy (s : Sys) : Option (Sys × Int) :=
  match s.var with
  | .null => some (s, EINVAL)
  | .stat _ => none
  | .obj o => match s.objs o with
    | none => none
    | some _ => some ({ s with
        objs := fun k => if k = o then none else s.objs k
        var := .null }, 0)

/-- `pthread_rwlock_init`, pthread_win_simple.c:254-280: the variable afterwards and the answer; `mem`: `calloc` succeeds, `ok`: the three Windows
objects are created, `a`: the new object. -/
def rwInit (v : Var) (mem ok : Bool) (a : Nat) : Var × Int :=
  match v with
  | .null => (.null, EINVAL)
  | v => if mem = false then (v, ENOMEM) else if ok = false then (v, -2) else (.obj a, 0)

end Verif.WinMutex
