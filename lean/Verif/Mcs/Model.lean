/-!
# Model of the MCS queue lock of the Windows pthread layer

`/repo/src/thread/pthread_win_simple/ptw32_mcs_lock.c`.

A node (`ptw32_mcs_local_node_t`) is a memory address, here a number below the number `N` of
nodes that exist.  Every call of `acquire` / `try_acquire` uses one node, and so does the
matching `release`; the program counter of the call is kept with its node.  Each atomic access
of shared memory (an interlocked operation, the plain store `pred->next = node`, a `SetEvent`,
the return of `WaitForSingleObject`) is one step, and steps of different nodes interleave freely.

Simplifications: sequential consistency (the Interlocked functions are full fences);
`node->lock` is not modelled (there is one lock); `CreateEvent` always succeeds;
`ptw32_mcs_node_transfer` is not modelled.
-/
namespace Verif.Mcs

/-- A `HANDLE` used as a flag (ptw32_mcs_lock.c:126-176): 0, -1, or an event handle. -/
inductive Flag where
  | zero | one | ev
  deriving DecidableEq, Repr

/-- Where the call that uses a node stands. -/
inductive Pc where
  /-- no call uses the node -/
  | gone
  /-- `acquire`, fields initialised (lines 192-195), about to exchange (198) -/
  | a0
  /-- about to store `pred->next = node` (204) -/
  | a1 (pred : Nat)
  /-- about to compare-and-exchange `pred->nextFlag` (205, 135-138) -/
  | a2 (pred : Nat)
  /-- about to `SetEvent` the handle found in `pred->nextFlag` (142) -/
  | a2e (pred : Nat)
  /-- `flag_wait(&node->readyFlag)`: about to read the flag (206, 155) -/
  | w0
  /-- about to compare-and-exchange the event into the flag (163) -/
  | w1
  /-- in `WaitForSingleObject` (169) -/
  | w2
  /-- the lock is held: `acquire` returned, `release` not called -/
  | hold
  /-- `release`: about to read `node->next` (227) -/
  | r0
  /-- about to compare-and-exchange the lock (234) -/
  | r1
  /-- `flag_wait(&node->nextFlag)` (243): about to read the flag -/
  | r2
  /-- about to compare-and-exchange the event into the flag -/
  | r3
  /-- in `WaitForSingleObject` -/
  | r3w
  /-- about to read `node->next` again (245) -/
  | r4
  /-- about to compare-and-exchange `next->readyFlag` (249, 135-138) -/
  | r5 (next : Nat)
  /-- about to `SetEvent` the handle found in `next->readyFlag` (142) -/
  | r6 (next : Nat)
  /-- a null pointer was dereferenced -/
  | ub
  deriving DecidableEq, Repr

/-- `ptw32_mcs_node_t_` (inc/thread/pthread_win_simple/ptw32_mcs_lock.h): `next`, `nextFlag`, `readyFlag`, plus the
state of the two events whose handles the flags may hold, plus the program counter. -/
structure Node where
  pc : Pc := .gone
  next : Option Nat := none
  nf : Flag := .zero
  rf : Flag := .zero
  ne : Bool := false
  re : Bool := false
  deriving DecidableEq, Repr

/-- Memory. -/
structure Sys where
  nd : Nat → Node
  /-- the lock word: the last node of the queue, or null -/
  lock : Option Nat
  /-- a thread wrote `nextFlag` of a node whose release had already returned -/
  late : Bool
  /-- any other access to a node that is not in use or to an event nobody waits on -/
  bad : Bool
  /-- observation: nodes in the order in which they joined the queue -/
  arr : List Nat
  /-- observation: nodes in the order in which they got the lock -/
  ent : List Nat

/-- Initially no node is in use and the lock is free. -/
def Sys.init : Sys := ⟨fun _ => {}, none, false, false, [], []⟩

/-- The memory with the node `p` replaced. -/
def upd (f : Nat → Node) (p : Nat) (x : Node) : Nat → Node :=
  fun k => if k = p then x else f k

/-- Update one node of the system. -/
def Sys.set (s : Sys) (p : Nat) (x : Node) : Sys := { s with nd := upd s.nd p x }

/-- Move the call of node `p` to `pc`. -/
def Sys.go (s : Sys) (p : Nat) (pc : Pc) : Sys := s.set p { s.nd p with pc := pc }

/-- The call of node `p` has obtained the lock. -/
def Sys.enter (s : Sys) (p : Nat) : Sys := { s.go p .hold with ent := s.ent ++ [p] }

/-- One step of a call inside `acquire` or `release` (ptw32_mcs_lock.c:188-250); `none` when the
call is blocked, idle, or in the caller's hands. -/
def run (s : Sys) (p : Nat) : Option Sys :=
  match (s.nd p).pc with
  | .gone => none
  | .hold => none
  | .ub => none
  | .a0 =>
    match s.lock with
    | none => some { s.enter p with lock := some p, arr := s.arr ++ [p] }
    | some r => some { s.go p (.a1 r) with lock := some p, arr := s.arr ++ [p] }
  | .a1 r =>
    some { (s.set r { s.nd r with next := some p }).go p (.a2 r) with
      bad := s.bad || (s.nd r).pc = .gone }
  | .a2 r =>
    if (s.nd r).nf = .zero then
      some { (s.set r { s.nd r with nf := .one }).go p .w0 with
        late := s.late || (s.nd r).pc = .gone }
    else some { s.go p (.a2e r) with late := s.late || (s.nd r).pc = .gone }
  | .a2e r =>
    some { (s.set r { s.nd r with ne := true }).go p .w0 with
      bad := s.bad || ((s.nd r).pc ≠ .r3w) || ((s.nd r).nf ≠ .ev) }
  | .w0 => if (s.nd p).rf = .zero then some (s.go p .w1) else some (s.enter p)
  | .w1 =>
    if (s.nd p).rf = .zero then some (s.set p { s.nd p with rf := .ev, re := false, pc := .w2 })
    else some (s.enter p)
  | .w2 =>
    if (s.nd p).re then some ((s.set p { s.nd p with re := false }).enter p) else none
  | .r0 =>
    match (s.nd p).next with
    | some n => some (s.go p (.r5 n))
    | none => some (s.go p .r1)
  | .r1 =>
    if s.lock = some p then some { s.go p .gone with lock := none }
    else some (s.go p .r2)
  | .r2 => if (s.nd p).nf = .zero then some (s.go p .r3) else some (s.go p .r4)
  | .r3 =>
    if (s.nd p).nf = .zero then some (s.set p { s.nd p with nf := .ev, ne := false, pc := .r3w })
    else some (s.go p .r4)
  | .r3w =>
    if (s.nd p).ne then some (s.set p { s.nd p with ne := false, pc := .r4 }) else none
  | .r4 =>
    match (s.nd p).next with
    | some n => some (s.go p (.r5 n))
    | none => some (s.go p .ub)
  | .r5 n =>
    if (s.nd n).rf = .zero then
      some { (s.set n { s.nd n with rf := .one }).go p .gone with
        bad := s.bad || (s.nd n).pc = .gone }
    else some { s.go p (.r6 n) with bad := s.bad || (s.nd n).pc = .gone }
  | .r6 n =>
    some { (s.set n { s.nd n with re := true }).go p .gone with
      bad := s.bad || ((s.nd n).pc ≠ .w2) || ((s.nd n).rf ≠ .ev) }

/-- A call of `acquire` starts with the node `p` (lines 192-195: every field is reset). -/
def callAcquire (s : Sys) (p : Nat) : Sys := s.set p { pc := .a0 }

/-- A call of `try_acquire` (lines 259-270): reset the node, exchange if the lock is null. -/
def callTry (s : Sys) (p : Nat) : Sys :=
  if s.lock = none then
    { (s.set p {}).enter p with lock := some p, arr := s.arr ++ [p] }
  else s.set p {}

/-- A call of `release` starts (line 222). -/
def callRelease (s : Sys) (p : Nat) : Sys := s.go p .r0

/-- Steps of the program with `N` nodes.  `strict` says whether callers wait, before they use a
node again, for the thread that queued behind it to finish with its `nextFlag`. -/
inductive Step (N : Nat) (strict : Bool) : Sys → Sys → Prop where
  | run {s s' : Sys} (p : Nat) (hp : p < N) (h : run s p = some s') : Step N strict s s'
  | acquire {s : Sys} (p : Nat) (hp : p < N) (hg : (s.nd p).pc = .gone)
      (hs : strict = true → ∀ k, (s.nd k).pc ≠ .a2 p) : Step N strict s (callAcquire s p)
  | tryAcquire {s : Sys} (p : Nat) (hp : p < N) (hg : (s.nd p).pc = .gone)
      (hs : strict = true → ∀ k, (s.nd k).pc ≠ .a2 p) : Step N strict s (callTry s p)
  | release {s : Sys} (p : Nat) (hp : p < N) (hg : (s.nd p).pc = .hold) :
      Step N strict s (callRelease s p)

/-- Reachable states. -/
inductive Reach (N : Nat) (strict : Bool) : Sys → Prop where
  | init : Reach N strict Sys.init
  | step {s s' : Sys} : Reach N strict s → Step N strict s s' → Reach N strict s'

end Verif.Mcs
