import Verif.Common.Tot

/-!
# Model of thread creation, join and detach in the simple Windows pthread layer

`/repo/src/thread/pthread_win_simple/pthread_win_simple.c`, lines 17-80 and 468-487.

Any number `N` of created threads, each with its own `struct pthread_s` ("block") and one owner that
calls `pthread_create` and later either `pthread_join` or `pthread_detach` (or nothing) on it, once.
All of them share `ptw32_thread_reuse_lock` (a mutual exclusion lock: `Verif.Mcs`).  Every access to
the block is one step, so are `free` and `CloseHandle`.

`malloc` and `CreateThread` may fail.  Simplification: `WaitForSingleObject` does not fail.
-/
namespace Verif.ThreadLife
open Verif.Tot

/-- Where a created thread stands (`pri_win_thread_start_routine`, 468-487). -/
inductive WPc where
  /-- does not exist, or exists and is suspended (24-25) -/
  | none
  /-- about to read `mStart`, `mArgs` (473) -/
  | start
  /-- in the start function -/
  | user
  /-- the start function has returned `v`, about to store it (474) -/
  | store (v : Nat)
  /-- about to acquire the lock (477) -/
  | acq
  /-- about to store `mThreadID = 0` (478) -/
  | zero
  /-- about to test `mDetached` (479) -/
  | test
  /-- about to read `mThreadHandle` and close it (481) -/
  | close
  /-- about to free the block (482) -/
  | free
  /-- about to release the lock (484) -/
  | rel
  /-- about to return from the start routine (485) -/
  | ret
  /-- terminated: its handle is signalled -/
  | dead
  deriving DecidableEq, Repr

/-- Where the owner stands. -/
inductive OPc where
  | idle
  /-- in `pthread_create`, block filled, thread created suspended, about to resume it (31) -/
  | resume
  /-- in `pthread_create`, `CreateThread` has failed, about to free the block (29) -/
  | cfree
  /-- `pthread_create` has returned `r ≠ 0` and NULL in `*tid_p` (20-21, 30) -/
  | refused (r : Int)
  /-- `pthread_create` has returned 0 with this thread id -/
  | owns
  /-- `pthread_join`: test of `mDetached` (39) -/
  | jtest
  /-- in `WaitForSingleObject` (47) -/
  | jwait
  /-- about to close the handle (49) -/
  | jclose
  /-- about to read `mExitCode` (53) -/
  | jread
  /-- about to free the block (56), with this value stored to `*value_ptr` -/
  | jfree (v : Nat)
  /-- `pthread_join` has returned 0 and this value -/
  | joined (v : Nat)
  /-- `pthread_detach`: test of `mDetached` (62) -/
  | dtest
  /-- about to acquire the lock (67) -/
  | dacq
  /-- about to test `mThreadID` (68) -/
  | did
  /-- in `WaitForSingleObject` (70) -/
  | dwait
  /-- about to close the handle (71) -/
  | dclose
  /-- about to free the block (73) -/
  | dfree
  /-- about to store `mDetached = true` (77) -/
  | dset
  /-- about to release the lock (79) -/
  | drel
  /-- `pthread_detach` has returned 0 -/
  | detached
  /-- the call returned `EINVAL` -/
  | einval
  deriving DecidableEq, Repr

/-- One block with its two threads. -/
structure Blk where
  w : WPc
  o : OPc
  /-- `mThreadID ≠ 0` -/
  tid : Bool
  /-- `mExitCode` -/
  code : Nat
  /-- `mDetached` -/
  det : Bool
  /-- the block is allocated -/
  live : Bool
  /-- the thread handle is open -/
  open_ : Bool
  /-- observation: number of calls of `free` on the block -/
  frees : Nat
  /-- observation: number of calls of `CloseHandle` on its handle -/
  closes : Nat
  /-- observation: a step used the block when it was not allocated or the handle when it was closed -/
  bad : Bool
  /-- observation: what the start function returned -/
  result : Option Nat
  deriving DecidableEq, Repr

def Blk.init : Blk := ⟨.none, .idle, false, 0, false, false, false, 0, 0, false, none⟩

/-- Who may hold the lock: the created thread number `i`, or its owner. -/
inductive Who where
  | w (i : Nat)
  | o (i : Nat)
  deriving DecidableEq, Repr

structure Sys where
  own : Option Who
  b : Nat → Blk

def Sys.init : Sys := ⟨none, fun _ => Blk.init⟩

def Sys.set (s : Sys) (i : Nat) (x : Blk) : Sys := { s with b := upd s.b i x }

/-- The next step of the created thread `i`; `none`: it waits, is in the start function, or is dead. -/
def runW (s : Sys) (i : Nat) : Option Sys :=
  let x := s.b i
  let bad := x.bad || !x.live
  match x.w with
  | .none => none
  | .user => none
  | .dead => none
  | .start => some (s.set i { x with w := .user, bad := bad })
  | .store v => some (s.set i { x with w := .acq, code := v, bad := bad })
  | .acq => if s.own = none then some ({ s with own := some (.w i) }.set i { x with w := .zero }) else none
  | .zero => some (s.set i { x with w := .test, tid := false, bad := bad })
  | .test => some (s.set i { x with w := if x.det then .close else .rel, bad := bad })
  | .close => some (s.set i { x with w := .free, open_ := false, closes := x.closes + 1, bad := bad || !x.open_ })
  | .free => some (s.set i { x with w := .rel, live := false, frees := x.frees + 1, bad := bad })
  | .rel => some ({ s with own := none }.set i { x with w := .ret })
  | .ret => some (s.set i { x with w := .dead })

/-- The next step of the owner of block `i`; `none`: it waits, or is in no call. -/
def runO (s : Sys) (i : Nat) : Option Sys :=
  let x := s.b i
  let bad := x.bad || !x.live
  let badh := x.bad || !x.live || !x.open_
  match x.o with
  | .idle => none
  | .owns => none
  | .joined _ => none
  | .detached => none
  | .einval => none
  | .refused _ => none
  | .cfree => some (s.set i { x with o := .refused (-1), live := false, frees := x.frees + 1, bad := bad })
  | .resume => some (s.set i { x with o := .owns, w := .start, bad := badh })
  | .jtest => some (s.set i { x with o := if x.det then .einval else .jwait, bad := bad })
  | .jwait => if x.w = .dead then some (s.set i { x with o := .jclose, bad := badh }) else none
  | .jclose => some (s.set i { x with o := .jread, open_ := false, closes := x.closes + 1, bad := badh })
  | .jread => some (s.set i { x with o := .jfree x.code, bad := bad })
  | .jfree v => some (s.set i { x with o := .joined v, live := false, frees := x.frees + 1, bad := bad })
  | .dtest => some (s.set i { x with o := if x.det then .einval else .dacq, bad := bad })
  | .dacq => if s.own = none then some ({ s with own := some (.o i) }.set i { x with o := .did }) else none
  | .did => some (s.set i { x with o := if x.tid then .dset else .dwait, bad := bad })
  | .dwait => if x.w = .dead then some (s.set i { x with o := .dclose, bad := badh }) else none
  | .dclose => some (s.set i { x with o := .dfree, open_ := false, closes := x.closes + 1, bad := badh })
  | .dfree => some (s.set i { x with o := .drel, live := false, frees := x.frees + 1, bad := bad })
  | .dset => some (s.set i { x with o := .drel, det := true, bad := bad })
  | .drel => some ({ s with own := none }.set i { x with o := .detached })

/-- The block after `malloc`, `memset`, the stores and `CreateThread(…, CREATE_SUSPENDED, …)` (19-26). -/
def Blk.fresh : Blk := { Blk.init with o := .resume, tid := true, live := true, open_ := true }

/-- The block after `malloc` and the stores when `CreateThread` fails (19-26). -/
def Blk.stillborn : Blk := { Blk.init with o := .cfree, live := true }

/-- `malloc` fails (20-21): `EINVAL`. -/
def Blk.noMem : Blk := { Blk.init with o := .refused 22 }

inductive Step (N : Nat) : Sys → Sys → Prop where
  | runW {s s' : Sys} (i : Nat) (hi : i < N) (h : runW s i = some s') : Step N s s'
  | runO {s s' : Sys} (i : Nat) (hi : i < N) (h : runO s i = some s') : Step N s s'
  -- the start function returns
  | ret {s : Sys} (i v : Nat) (hi : i < N) (h : (s.b i).w = .user) :
      Step N s (s.set i { s.b i with w := .store v, result := some v })
  -- calls by the owner
  | create {s : Sys} (i : Nat) (hi : i < N) (h : (s.b i).o = .idle) : Step N s (s.set i Blk.fresh)
  | noThread {s : Sys} (i : Nat) (hi : i < N) (h : (s.b i).o = .idle) : Step N s (s.set i Blk.stillborn)
  | noMem {s : Sys} (i : Nat) (hi : i < N) (h : (s.b i).o = .idle) : Step N s (s.set i Blk.noMem)
  | join {s : Sys} (i : Nat) (hi : i < N) (h : (s.b i).o = .owns) : Step N s (s.set i { s.b i with o := .jtest })
  | detach {s : Sys} (i : Nat) (hi : i < N) (h : (s.b i).o = .owns) : Step N s (s.set i { s.b i with o := .dtest })

inductive Reach (N : Nat) : Sys → Prop where
  | init : Reach N Sys.init
  | step {s s' : Sys} : Reach N s → Step N s s' → Reach N s'

end Verif.ThreadLife
