import Verif.Common.Mem
/-!
# `portable_thread_posix.c`: handles of threads, mutexes, read-write locks and semaphores

A handle is a pointer to a malloc'd wrapper around one pthread / semaphore object.  The library is a layer above the
primitives: a primitive's answer is an input, the calls that reach primitives are recorded.  Addresses of wrappers are
not reused (so that every access to a freed wrapper is seen).  `none` = undefined behaviour: a NULL or freed wrapper is
accessed.
-/
namespace Verif.Portable

/-- the four handle types, inc/thread/portable_thread.h:59-62 -/
inductive Kind where
  | thread | mutex | rwlock | sem
  deriving DecidableEq

/-- the primitives called in src/thread/portable_thread_posix.c -/
inductive Fn where
  | pthread_create | pthread_setname_np (name : List Byte) | pthread_join
  | pthread_mutex_init | pthread_mutex_lock | pthread_mutex_unlock | pthread_mutex_destroy
  | pthread_rwlock_init | pthread_rwlock_rdlock | pthread_rwlock_wrlock | pthread_rwlock_unlock | pthread_rwlock_destroy
  | sem_init (value : Nat) | sem_wait | sem_post | sem_getvalue | sem_destroy
  deriving DecidableEq

/-- a call of a primitive on the object in wrapper `obj`, and its answer -/
structure Ev where
  obj : Nat
  fn : Fn
  ret : Int
  deriving DecidableEq

/-- handle variables (by type and address; `none` = NULL), live wrappers, calls of primitives so far (newest last) -/
structure St where
  var : Kind → Nat → Option Nat
  heap : List (Nat × Kind)
  next : Nat
  trace : List Ev

/-- program start, every handle variable NULL -/
def St.init : St := ⟨fun _ _ => none, [], 0, []⟩

/-- `*handle = x` -/
def St.setVar (s : St) (k : Kind) (v : Nat) (x : Option Nat) : St :=
  { s with var := fun k' v' => if k' = k ∧ v' = v then x else s.var k' v' }

/-- `malloc(sizeof(..)); memset(..)`; `oom`: the allocation fails -/
def St.malloc (s : St) (k : Kind) (oom : Bool) : Option (St × Nat) :=
  if oom then none else some ({ s with heap := (s.next, k) :: s.heap, next := s.next + 1 }, s.next)

/-- `free` -/
def St.free (s : St) (k : Kind) (p : Nat) : Option St :=
  if (p, k) ∈ s.heap then some { s with heap := s.heap.filter (· ≠ (p, k)) } else none

/-- a primitive called with `&posix->id`: the wrapper must be live -/
def St.prim (s : St) (k : Kind) (p : Option Nat) (f : Fn) (ret : Int) : Option St :=
  match p with
  | none => none
  | some p => if (p, k) ∈ s.heap then some { s with trace := s.trace ++ [⟨p, f, ret⟩] } else none

/-- what the system answers during a call: `malloc` fails; the primitive's result -/
structure Env where
  oom : Bool
  ret : Int

/-- the results of the functions: state and return value -/
abbrev Res := Option (St × Int)

/-- `portable_thread_create`, src/thread/portable_thread_posix.c:44-76; `routine`: whether `start_routine` is not NULL;
`name`: `thread_attr->name` up to its terminator, `none` when `thread_attr` is NULL -/
def threadCreate (s : St) (newthread : Option Nat) (routine : Bool) (name : Option (List Byte)) (e : Env) : Res :=
  match newthread with
  | none => some (s, -1)
  | some v =>
    if routine = false then some (s, -1)
    else
      let s := s.setVar .thread v none
      match s.malloc .thread e.oom with
      | none => some (s, -2)
      | some (s, p) => do
        let s ← s.prim .thread (some p) .pthread_create e.ret
        if e.ret = 0 then
          let s := s.setVar .thread v (some p)
          match name with
          | some (c :: cs) => do
            let s ← s.prim .thread (some p) (.pthread_setname_np (c :: cs)) 0   -- answer ignored
            some (s, e.ret)
          | _ => some (s, e.ret)
        else
          let s ← s.free .thread p
          some (s, e.ret)

/-- `portable_thread_join`, src/thread/portable_thread_posix.c:79-91: the handle is passed by value -/
def threadJoin (s : St) (th : Option Nat) (e : Env) : Res :=
  match th with
  | none => some (s, -1)
  | some p => do
    let s ← s.prim .thread (some p) .pthread_join e.ret
    let s ← s.free .thread p
    some (s, e.ret)

/-- `portable_mutex_init`, src/thread/portable_thread_posix.c:96-120 -/
def mutexInit (s : St) (mutex : Option Nat) (e : Env) : Res :=
  match mutex with
  | none => some (s, -1)
  | some v =>
    let s := s.setVar .mutex v none
    match s.malloc .mutex e.oom with
    | none => some (s, -2)
    | some (s, p) => do
      let s ← s.prim .mutex (some p) .pthread_mutex_init e.ret
      if e.ret = 0 then some (s.setVar .mutex v (some p), e.ret)
      else
        let s ← s.free .mutex p
        some (s, e.ret)

/-- `portable_mutex_lock`, src/thread/portable_thread_posix.c:122-130 -/
def mutexLock (s : St) (mutex : Option Nat) (e : Env) : Res :=
  match mutex with
  | none => some (s, -1)
  | some v =>
    if s.var .mutex v = none then some (s, -1)
    else (s.prim .mutex (s.var .mutex v) .pthread_mutex_lock e.ret).map fun s => (s, e.ret)

/-- `portable_mutex_unlock`, src/thread/portable_thread_posix.c:132-140: `*mutex` is not tested -/
def mutexUnlock (s : St) (mutex : Option Nat) (e : Env) : Res :=
  match mutex with
  | none => some (s, -1)
  | some v => (s.prim .mutex (s.var .mutex v) .pthread_mutex_unlock e.ret).map fun s => (s, e.ret)

/-- `portable_mutex_destroy`, src/thread/portable_thread_posix.c:142-155 -/
def mutexDestroy (s : St) (mutex : Option Nat) (e : Env) : Res :=
  match mutex with
  | none => some (s, -1)
  | some v =>
    match s.var .mutex v with
    | none => some (s, -1)
    | some p => do
      let s ← s.prim .mutex (some p) .pthread_mutex_destroy e.ret
      let s ← s.free .mutex p
      some (s.setVar .mutex v none, e.ret)

/-- `portable_rwlock_init`, src/thread/portable_thread_posix.c:160-184 -/
def rwlockInit (s : St) (lock : Option Nat) (e : Env) : Res :=
  match lock with
  | none => some (s, -1)
  | some v =>
    let s := s.setVar .rwlock v none
    match s.malloc .rwlock e.oom with
    | none => some (s, -2)
    | some (s, p) => do
      let s ← s.prim .rwlock (some p) .pthread_rwlock_init e.ret
      if e.ret = 0 then some (s.setVar .rwlock v (some p), e.ret)
      else
        let s ← s.free .rwlock p
        some (s, e.ret)

/-- `portable_rwlock_destroy`, src/thread/portable_thread_posix.c:187-200 -/
def rwlockDestroy (s : St) (lock : Option Nat) (e : Env) : Res :=
  match lock with
  | none => some (s, -1)
  | some v =>
    match s.var .rwlock v with
    | none => some (s, -1)
    | some p => do
      let s ← s.prim .rwlock (some p) .pthread_rwlock_destroy e.ret
      let s ← s.free .rwlock p
      some (s.setVar .rwlock v none, e.ret)

/-- `portable_rwlock_rdlock`, src/thread/portable_thread_posix.c:203-211 -/
def rwlockRdlock (s : St) (lock : Option Nat) (e : Env) : Res :=
  match lock with
  | none => some (s, -1)
  | some v =>
    if s.var .rwlock v = none then some (s, -1)
    else (s.prim .rwlock (s.var .rwlock v) .pthread_rwlock_rdlock e.ret).map fun s => (s, e.ret)

/-- `portable_rwlock_wrlock`, src/thread/portable_thread_posix.c:214-222 -/
def rwlockWrlock (s : St) (lock : Option Nat) (e : Env) : Res :=
  match lock with
  | none => some (s, -1)
  | some v =>
    if s.var .rwlock v = none then some (s, -1)
    else (s.prim .rwlock (s.var .rwlock v) .pthread_rwlock_wrlock e.ret).map fun s => (s, e.ret)

/-- `portable_rwlock_unlock`, src/thread/portable_thread_posix.c:225-233 -/
def rwlockUnlock (s : St) (lock : Option Nat) (e : Env) : Res :=
  match lock with
  | none => some (s, -1)
  | some v =>
    if s.var .rwlock v = none then some (s, -1)
    else (s.prim .rwlock (s.var .rwlock v) .pthread_rwlock_unlock e.ret).map fun s => (s, e.ret)

/-- `portable_sem_init`, src/thread/portable_thread_posix.c:239-263 -/
def semInit (s : St) (sem : Option Nat) (value : Nat) (e : Env) : Res :=
  match sem with
  | none => some (s, -1)
  | some v =>
    let s := s.setVar .sem v none
    match s.malloc .sem e.oom with
    | none => some (s, -2)
    | some (s, p) => do
      let s ← s.prim .sem (some p) (.sem_init value) e.ret
      if e.ret = 0 then some (s.setVar .sem v (some p), e.ret)
      else
        let s ← s.free .sem p
        some (s, e.ret)

/-- `portable_sem_wait`, src/thread/portable_thread_posix.c:266-276 -/
def semWait (s : St) (sem : Option Nat) (e : Env) : Res :=
  match sem with
  | none => some (s, -1)
  | some v =>
    if s.var .sem v = none then some (s, -1)
    else (s.prim .sem (s.var .sem v) .sem_wait e.ret).map fun s => (s, e.ret)

/-- `portable_sem_post`, src/thread/portable_thread_posix.c:279-289 -/
def semPost (s : St) (sem : Option Nat) (e : Env) : Res :=
  match sem with
  | none => some (s, -1)
  | some v =>
    if s.var .sem v = none then some (s, -1)
    else (s.prim .sem (s.var .sem v) .sem_post e.ret).map fun s => (s, e.ret)

/-- `portable_sem_getvalue`, src/thread/portable_thread_posix.c:292-302 (`*sval` is written by the primitive) -/
def semGetvalue (s : St) (sem : Option Nat) (e : Env) : Res :=
  match sem with
  | none => some (s, -1)
  | some v =>
    if s.var .sem v = none then some (s, -1)
    else (s.prim .sem (s.var .sem v) .sem_getvalue e.ret).map fun s => (s, e.ret)

/-- `portable_sem_destroy`, src/thread/portable_thread_posix.c:305-318 -/
def semDestroy (s : St) (sem : Option Nat) (e : Env) : Res :=
  match sem with
  | none => some (s, -1)
  | some v =>
    match s.var .sem v with
    | none => some (s, -1)
    | some p => do
      let s ← s.prim .sem (some p) .sem_destroy e.ret
      let s ← s.free .sem p
      some (s.setVar .sem v none, e.ret)

/-- the calls of the interface, inc/thread/portable_thread.h:74-113; `getvalue` … carry the address of the handle
variable (`none` = NULL), `join` carries the handle itself -/
inductive Call where
  | threadCreate (newthread : Option Nat) (routine : Bool) (name : Option (List Byte))
  | threadJoin (th : Option Nat)
  | mutexInit (h : Option Nat) | mutexLock (h : Option Nat) | mutexUnlock (h : Option Nat) | mutexDestroy (h : Option Nat)
  | rwlockInit (h : Option Nat) | rwlockRdlock (h : Option Nat) | rwlockWrlock (h : Option Nat)
  | rwlockUnlock (h : Option Nat) | rwlockDestroy (h : Option Nat)
  | semInit (h : Option Nat) (value : Nat) | semWait (h : Option Nat) | semPost (h : Option Nat)
  | semGetvalue (h : Option Nat) | semDestroy (h : Option Nat)

/-- dispatch of a call to its function -/
def step (s : St) (c : Call) (e : Env) : Res :=
  match c with
  | .threadCreate h r n => threadCreate s h r n e
  | .threadJoin h => threadJoin s h e
  | .mutexInit h => mutexInit s h e
  | .mutexLock h => mutexLock s h e
  | .mutexUnlock h => mutexUnlock s h e
  | .mutexDestroy h => mutexDestroy s h e
  | .rwlockInit h => rwlockInit s h e
  | .rwlockRdlock h => rwlockRdlock s h e
  | .rwlockWrlock h => rwlockWrlock s h e
  | .rwlockUnlock h => rwlockUnlock s h e
  | .rwlockDestroy h => rwlockDestroy s h e
  | .semInit h v => semInit s h v e
  | .semWait h => semWait s h e
  | .semPost h => semPost s h e
  | .semGetvalue h => semGetvalue s h e
  | .semDestroy h => semDestroy s h e

/-- a history of calls, with what the system answered -/
def run (s : St) : List (Call × Env) → Option (St × List Int)
  | [] => some (s, [])
  | (c, e) :: cs => (step s c e).bind fun (s, r) => (run s cs).map fun (s, rs) => (s, r :: rs)

end Verif.Portable
