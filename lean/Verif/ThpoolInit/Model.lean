/-!
# `thpool_init` with failing calls, and what `thpool_destroy` frees (src/thread/thpool.c 125-179, 245-252, 307-321)

The memory of the pool as a set of blocks, the answers of `malloc` and `pthread_create` as inputs, and the new threads
running beside the caller.  What the workers do after reporting themselves alive is the model of `Verif.Thpool`.
-/
namespace Verif.ThpoolInit

/-- the blocks a pool consists of -/
inductive Blk where
  /-- 136 -/
  | pool
  /-- 425, `has_jobs` -/
  | bsem
  /-- 153, the array of thread pointers -/
  | table
  /-- 309 -/
  | thread (i : Nat)
  deriving DecidableEq

/-- answers of the system -/
structure Env where
  /-- does the `malloc` of this block succeed? -/
  mem : Blk → Bool
  /-- does the `i`-th `pthread_create` succeed? -/
  create : Nat → Bool

/-- where the caller of `thpool_init` is -/
inductive Main where
  /-- before 136 -/
  | pool
  /-- before 146 -/
  | queue
  /-- before 153 -/
  | table
  /-- before 309 for thread `i` -/
  | alloc (i : Nat)
  /-- before 318-319 for thread `i` -/
  | start (i : Nat)
  /-- in the loop 174-176 -/
  | wait
  /-- returned: a pool, or NULL -/
  | ret (ok : Bool)
  deriving DecidableEq

/-- where a worker is: not there, before 365-367, after them -/
inductive Wrk where
  | none | boot | alive
  deriving DecidableEq

structure St where
  live : Blk → Bool
  main : Main
  wrk : Nat → Wrk
  /-- `num_threads_alive` -/
  alive : Nat
  /-- a block freed that was not live, or `pthread_detach` of a `pthread_t` never written -/
  ub : Bool

def St.init : St := ⟨fun _ => false, .pool, fun _ => .none, 0, false⟩

def set {α β : Type} [DecidableEq α] (f : α → β) (a : α) (b : β) : α → β := fun x => if x = a then b else f x

def St.take (s : St) (b : Blk) : St := { s with live := set s.live b true }

/-- `free` -/
def St.free (s : St) (b : Blk) : St := { s with live := set s.live b false, ub := s.ub || !s.live b }

/-- the next thread to be made, or the wait: 166 -/
def next (n i : Nat) : Main := if i < n then .alloc i else .wait

/-- 130-132: a negative number means none -/
def count (num : Int) : Nat := if num < 0 then 0 else num.toNat

/-- one step of the caller (thread 0 of the schedule) -/
def mainStep (e : Env) (n : Nat) (s : St) : St :=
  match s.main with
  /- 136-140 -/
  | .pool => if e.mem .pool then { s.take .pool with main := .queue } else { s with main := .ret false }
  /- 146-150, 420-434: `jobqueue_init`; 148 frees the pool -/
  | .queue => if e.mem .bsem then { s.take .bsem with main := .table } else { s.free .pool with main := .ret false }
  /- 153-159: 156 `jobqueue_destroy` (515 frees `has_jobs`), 157 -/
  | .table =>
    if e.mem .table then { s.take .table with main := next n 0 }
    else { (s.free .bsem).free .pool with main := .ret false }
  /- 309-313; the result of `thread_init` is not used, 167 -/
  | .alloc i =>
    if e.mem (.thread i) then { s.take (.thread i) with main := .start i } else { s with main := next n (i + 1) }
  /- 318-319; the results are not used -/
  | .start i =>
    if e.create i then { s with wrk := set s.wrk i .boot, main := next n (i + 1) }
    else { s with ub := true, main := next n (i + 1) }
  /- 174-178 -/
  | .wait => if s.alive = n then { s with main := .ret true } else s
  | .ret _ => s

/-- one step of worker `i`, 365-367 -/
def wrkStep (s : St) (i : Nat) : St :=
  match s.wrk i with
  | .boot => { s with wrk := set s.wrk i .alive, alive := s.alive + 1 }
  | _ => s

/-- a step of thread `t`: 0 is the caller, `i + 1` is worker `i` -/
def step (e : Env) (n : Nat) (s : St) : Nat → St
  | 0 => mainStep e n s
  | i + 1 => wrkStep s i

def run (e : Env) (n : Nat) (s : St) (sched : List Nat) : St := sched.foldl (step e n) s

/-- 247-250: the loop freeing the thread records -/
def freeThreads (s : St) (total : Nat) : Nat → St
  | 0 => s
  | k + 1 => freeThreads (s.free (.thread (total - (k + 1)))) total k

/-- 245-252: what `thpool_destroy` frees, once the workers have left; `total` is what it read in 222.
245 frees `has_jobs` (the queue is empty) -/
def destroy (s : St) (total : Nat) : St :=
  ((freeThreads (s.free .bsem) total total).free .table).free .pool

end Verif.ThpoolInit
