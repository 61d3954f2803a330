import Verif.Common.Tot

/-!
# Model of the condition variable of the simple Windows pthread layer

`/repo/src/thread/pthread_win_simple/pthread_win_simple.c`, lines 168-250.

Any number `N` of threads, one condition variable, one user mutex.  `cond->mLock` protects the
three counters, so each of its critical sections is one step; `ReleaseSemaphore` and the return of
`WaitForSingleObject` are separate steps, as are locking and unlocking the user mutex.

Simplifications: the counters start at 0 (`pthread_cond_init` does not set them: see DESIGN.md);
`size_t` counters do not wrap around; the semaphore's maximum 0x7FFFFFFF is not reached; waits do
not fail; the user mutex is a mutual exclusion lock.
-/
namespace Verif.Cond
open Verif.Tot

/-- Where a thread stands. -/
inductive Pc where
  | idle
  /-- locking the user mutex -/
  | want
  /-- holds the user mutex, in no call -/
  | held
  /-- `pthread_cond_wait` called (182) -/
  | c0
  /-- registered with this generation, about to unlock the user mutex (190) -/
  | c1 (g : Nat)
  /-- in `WaitForSingleObject` (192) -/
  | c2 (g : Nat)
  /-- about to enter the critical section (193) -/
  | c3 (g : Nat)
  /-- about to give the token back (208) -/
  | c4 (g : Nat)
  /-- about to lock the user mutex again (212) -/
  | c5
  /-- in `pthread_cond_signal` (`all = false`) or `_broadcast`, about to enter the critical
  section; `h`: the thread holds the user mutex -/
  | sig (all h : Bool)
  /-- about to `ReleaseSemaphore(…, n)` if `n ≠ 0` (229, 247) -/
  | post (n : Nat) (h : Bool)
  deriving DecidableEq, Repr

structure Sys where
  /-- `mWaiting` -/
  waiting : Nat
  /-- `mWake` -/
  wake : Nat
  /-- `mGeneration` -/
  gen : Nat
  /-- the count of `mSemaphore` -/
  sem : Nat
  /-- the owner of the user mutex -/
  um : Option Nat
  th : Nat → Pc
  /-- observation: wake-ups promised by `signal` (one) and `broadcast` (all who wait) -/
  promised : Nat
  /-- observation: calls of `pthread_cond_wait` that have been woken -/
  woken : Nat

def Sys.init : Sys := ⟨0, 0, 0, 0, none, fun _ => .idle, 0, 0⟩

def Sys.go (s : Sys) (t : Nat) (c : Pc) : Sys := { s with th := upd s.th t c }

/-- Where a thread goes when its call returns. -/
def back (h : Bool) : Pc := if h then .held else .idle

/-- The next step of a thread inside a call (`none`: it has to wait, or is not in a call). -/
def run (s : Sys) (t : Nat) : Option Sys :=
  match s.th t with
  | .idle => none
  | .held => none
  | .want => if s.um = none then some ({ s with um := some t }.go t .held) else none
  -- 186-189
  | .c0 => some ({ s with waiting := s.waiting + 1 }.go t (.c1 s.gen))
  -- 190
  | .c1 g => some ({ s with um := none }.go t (.c2 g))
  -- 192
  | .c2 g => if s.sem ≠ 0 then some ({ s with sem := s.sem - 1 }.go t (.c3 g)) else none
  -- 193-204, 211
  | .c3 g =>
    if s.wake ≠ 0 then
      if s.gen ≠ g then
        some ({ s with wake := s.wake - 1, waiting := s.waiting - 1, woken := s.woken + 1 }.go t .c5)
      else some (s.go t (.c4 g))
    else some (s.go t (.c2 g))
  -- 205-209
  | .c4 g => some ({ s with sem := s.sem + 1 }.go t (.c2 g))
  -- 212
  | .c5 => if s.um = none then some ({ s with um := some t }.go t .held) else none
  -- 219-226 and 237-244
  | .sig false h =>
    if s.waiting > s.wake then
      some ({ s with wake := s.wake + 1, gen := s.gen + 1, promised := s.promised + 1 }.go t (.post 1 h))
    else some (s.go t (.post 0 h))
  | .sig true h =>
    if s.waiting > s.wake then
      some ({ s with wake := s.waiting, gen := s.gen + 1,
                     promised := s.promised + (s.waiting - s.wake) }.go t (.post (s.waiting - s.wake) h))
    else some (s.go t (.post 0 h))
  -- 227-230 and 245-248
  | .post n h => some ({ s with sem := s.sem + n }.go t (back h))

/-- Steps of the calls, and new calls. -/
inductive Step (N : Nat) : Sys → Sys → Prop where
  | run {s s' : Sys} (t : Nat) (ht : t < N) (h : run s t = some s') : Step N s s'
  | lock {s : Sys} (t : Nat) (ht : t < N) (h : s.th t = .idle) : Step N s (s.go t .want)
  | unlock {s : Sys} (t : Nat) (ht : t < N) (h : s.th t = .held) :
      Step N s ({ s with um := none }.go t .idle)
  | wait {s : Sys} (t : Nat) (ht : t < N) (h : s.th t = .held) : Step N s (s.go t .c0)
  | notifyIdle {s : Sys} (t : Nat) (all : Bool) (ht : t < N) (h : s.th t = .idle) :
      Step N s (s.go t (.sig all false))
  | notifyHeld {s : Sys} (t : Nat) (all : Bool) (ht : t < N) (h : s.th t = .held) :
      Step N s (s.go t (.sig all true))

inductive Reach (N : Nat) : Sys → Prop where
  | init : Reach N Sys.init
  | step {s s' : Sys} : Reach N s → Step N s s' → Reach N s'

end Verif.Cond
