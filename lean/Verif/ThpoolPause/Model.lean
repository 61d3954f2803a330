/-!
# Model of `thpool_pause` / `thpool_resume` (`/repo/src/thread/thpool.c` 255-288, 353-362)

Transition system of any number of pools, workers and calling threads.  What a worker does besides (C53) is seen as steps:
taking and leaving the queue's mutex, other work, leaving the loop.  Each store to and load of the global `threads_on_hold` is
one step.  A `SIGUSR1` is pending for a thread at most once (standard signals do not queue), is delivered at any time the thread
is not in its handler (`sa_mask` is empty, no `SA_NODEFER`: the signal itself is blocked during the handler), also while the
thread holds a mutex or waits.  Not modelled: `fprintf` in the handler, failing `pthread_kill`, spurious early wake-ups
of `sleep` (covered: `wake` may happen at any time).
-/
namespace Verif.ThpoolPause

/-- Where a worker is with respect to the handler `thread_hold`, thpool.c 258-266. -/
inductive Pc
  /-- not in the handler -/
  | out
  /-- 260: about to set the flag -/
  | set
  /-- 261: about to test the flag -/
  | loop
  /-- 263: in `sleep(1)` -/
  | nap
  deriving DecidableEq, Repr

/-- The pools: the workers of each, thpool.c 83-91 (`threads`). -/
abbrev Pools := Nat → List Nat

/-- Global state. -/
structure Sys where
  /-- `threads_on_hold`, thpool.c (file scope): one flag for all pools -/
  flag : Bool
  /-- a `SIGUSR1` is pending for worker `i` -/
  pend : Nat → Bool
  pc : Nat → Pc
  /-- owner of the `rwmutex` of each pool's queue -/
  lock : Nat → Option Nat
  /-- worker `i` has not left its loop (`num_threads_alive` counts these) -/
  alive : Nat → Bool
  /-- 271: the workers calling thread `c`, inside `thpool_pause`, has yet to signal -/
  todo : Nat → List Nat

/-- thpool.c 127: all workers running. -/
def init : Sys :=
  { flag := false, pend := fun _ => false, pc := fun _ => .out, lock := fun _ => none, alive := fun _ => true,
    todo := fun _ => [] }

/-- What can happen. -/
inductive Ev
  /-- thread `c` calls `thpool_pause` of pool `p` -/
  | pause (c p : Nat)
  /-- 272: thread `c` signals the next worker -/
  | kill (c : Nat)
  /-- 285: some thread calls `thpool_resume` of pool `p` -/
  | resume (p : Nat)
  /-- 127: some thread creates a pool -/
  | create
  | deliver (i : Nat)
  /-- 260 -/
  | set (i : Nat)
  /-- 261 -/
  | test (i : Nat)
  /-- 263 -/
  | wake (i : Nat)
  /-- worker `i` locks, unlocks the queue of pool `p`, or works -/
  | lock (i p : Nat)
  | unlock (i p : Nat)
  | work (i : Nat)
  /-- worker `i` leaves, 399-401 -/
  | leave (i : Nat)
  deriving DecidableEq, Repr

/-- Function update. -/
def upd {α : Type} (f : Nat → α) (i : Nat) (x : α) : Nat → α := fun j => if j = i then x else f j

/-- One step; `none`: not possible. -/
def step (P : Pools) (s : Sys) : Ev → Option Sys
  | .pause c p => if s.todo c = [] then some { s with todo := upd s.todo c (P p) } else none
  | .kill c =>
    match s.todo c with
    | [] => none
    | i :: r => some { s with pend := upd s.pend i true, todo := upd s.todo c r }
  | .resume _ => some { s with flag := false }
  | .create => some { s with flag := false }
  | .deliver i =>
    if s.pend i = true ∧ s.pc i = .out then some { s with pend := upd s.pend i false, pc := upd s.pc i .set } else none
  | .set i => if s.pc i = .set then some { s with flag := true, pc := upd s.pc i .loop } else none
  | .test i => if s.pc i = .loop then some { s with pc := upd s.pc i (if s.flag then .nap else .out) } else none
  | .wake i => if s.pc i = .nap then some { s with pc := upd s.pc i .loop } else none
  | .lock i p =>
    if s.pc i = .out ∧ s.alive i = true ∧ s.lock p = none then some { s with lock := upd s.lock p (some i) } else none
  | .unlock i p =>
    if s.pc i = .out ∧ s.alive i = true ∧ s.lock p = some i then some { s with lock := upd s.lock p none } else none
  | .work i => if s.pc i = .out ∧ s.alive i = true then some s else none
  | .leave i => if s.pc i = .out ∧ s.alive i = true then some { s with alive := upd s.alive i false } else none

/-- A sequence of steps. -/
def run (P : Pools) : Sys → List Ev → Option Sys
  | s, [] => some s
  | s, e :: es => (step P s e).bind fun s' => run P s' es

/-- thpool.c 232-242: `thpool_destroy` of pool `p` gets past its waiting loops. -/
def destroyReturns (P : Pools) (s : Sys) (p : Nat) : Prop := ∀ i ∈ P p, s.alive i = false

end Verif.ThpoolPause
