/-!
# Model of `src/thread/thpool.c`: a pool of worker threads with a job queue

Labelled transition system.  Any number of workers (`wrk`), of threads calling `thpool_add_work` (`sub`), of threads
calling `thpool_wait` (`wt`), and one thread calling `thpool_destroy`.  A job which itself adds work is covered: the
adding thread then is the one in `sub`, moving while its worker is `running`.

* The job queue is the real linked list: heap cells with `prev` pointers, `front`, `rear`, `len`; every store to it is
  one step, and `rwmutex` has an owner.
* `thcount_lock` has an owner; `thpool_wait` reads `jobqueue.len` and `num_threads_working` in two steps, as in the C
  code without holding `rwmutex`.
* The critical sections of the binary semaphore's own mutex (which contain no other synchronisation) are one step each;
  `pthread_cond_wait` releases and sleeps in one step, may return spuriously, `pthread_cond_signal` wakes one sleeper if
  there is any.
* `len`, the counters and job numbers are unbounded (the C code would need 2^31 queued jobs to overflow its `int`).
* Not modelled: pause/resume (signals), thread names, failing `pthread_create`, weak memory.
-/
namespace Verif.Thpool

/-- ghost: who is responsible for a job cell -/
inductive Own where
  /-- being added by thread `t` -/
  | sub (t : Nat)
  /-- in the queue, the `id`-th job added -/
  | queue (id : Nat)
  /-- dequeued by worker `i` as the `id`-th -/
  | wrk (i id : Nat)
  deriving DecidableEq

/-- `job`, src/thread/thpool.c:57-61; `job` stands for `function` and `arg`. -/
structure Cell (J : Type) where
  prev : Option Nat
  job : J
  own : Own

/-- Worker, `thread_do` src/thread/thpool.c:335-404 with `bsem_wait` and `jobqueue_pull` inlined. -/
inductive Wrk where
  /-- 365-367 -/
  | boot
  /-- 369: tests `threads_keepalive` -/
  | test
  /-- 371, 563-564: about to look at the semaphore for the first time -/
  | enter
  /-- 565: sleeping on the condition variable -/
  | asleep
  /-- 565: woken, about to look at the semaphore again -/
  | woken
  /-- 373 -/
  | recheck
  /-- 377-379 -/
  | inc
  /-- 484: about to lock `rwmutex` -/
  | plock
  /-- 485-487 -/
  | pread
  /-- 493, with `job_p` -/
  | p1a (jp : Option Nat)
  /-- 494 -/
  | p1b (jp : Option Nat)
  /-- 495 -/
  | p1c (jp : Option Nat)
  /-- 499 -/
  | p2a (jp : Option Nat)
  /-- 500 -/
  | p2b (jp : Option Nat)
  /-- 502 -/
  | p2c (jp : Option Nat) (id : Nat)
  /-- 507 -/
  | punl (jp : Option Nat) (id : Nat)
  /-- 385-388: about to call the function -/
  | call (jp : Option Nat) (id : Nat)
  /-- 388: inside the function -/
  | running (p id : Nat)
  /-- 389 -/
  | free (p id : Nat)
  /-- 392-397 -/
  | dec
  /-- 399-400 -/
  | leave
  /-- 401: still has to unlock `thcount_lock` -/
  | left
  | gone
  /-- dereferenced a null or dangling pointer -/
  | ub
  deriving DecidableEq

/-- A thread calling `thpool_add_work`, src/thread/thpool.c:183-204, `jobqueue_push` 454-476 inlined. -/
inductive Sub where
  | idle
  /-- 456: the cell is allocated and filled, about to lock `rwmutex` -/
  | slock (p : Nat)
  /-- 457 -/
  | s0 (p : Nat)
  /-- 459-462, 467 -/
  | s1 (p : Nat)
  /-- 463, 468 -/
  | s2 (p : Nat)
  /-- 472 -/
  | s3 (p : Nat)
  /-- 474 -/
  | s4 (id : Nat)
  /-- 475 -/
  | s5 (id : Nat)
  | ub
  deriving DecidableEq

/-- A thread calling `thpool_wait`, src/thread/thpool.c:208-214.  `snap` is ghost: the jobs whose `thpool_add_work` had
returned when `thpool_wait` was called. -/
inductive Wt where
  | idle
  /-- 209 -/
  | tlock (snap : List Nat)
  /-- 210: reads `jobqueue.len` -/
  | t0 (snap : List Nat)
  /-- 210: reads `num_threads_working` -/
  | t1 (snap : List Nat)
  /-- 211: about to wait -/
  | tw (snap : List Nat)
  | tasleep (snap : List Nat)
  /-- 211: woken, has to get the lock back -/
  | twoken (snap : List Nat)
  /-- 213 -/
  | tunl (snap : List Nat)
  deriving DecidableEq

/-- `thpool_destroy`, src/thread/thpool.c:218-253: not called; 225 done, about to test `num_threads_alive` (232, 239);
about to post (233, 240); everything freed. -/
inductive Dst where
  | no
  | loop
  | post
  | freed
  deriving DecidableEq

/-- owner of `rwmutex` -/
inductive Who where
  | wrk (i : Nat)
  | sub (t : Nat)
  deriving DecidableEq

/-- owner of `thcount_lock` (the worker's other uses of it are single steps) -/
inductive Cnt where
  | wt (t : Nat)
  | left (i : Nat)
  deriving DecidableEq

/-- Global state.  Ghosts: `added` = jobs in the order in which they entered the queue, `returned` = numbers of the jobs
whose `thpool_add_work` returned 0, `dequeued` = jobs in the order in which workers took them, `calls` = invocations of
job functions in the order in which they began, `done` = numbers of the jobs whose function returned. -/
structure Sys (J : Type) where
  heap : Nat → Option (Cell J)
  front : Option Nat
  rear : Option Nat
  len : Nat
  rw : Option Who
  v : Bool
  keep : Bool
  alive : Nat
  working : Nat
  tc : Option Cnt
  ready : Bool
  wrk : List Wrk
  sub : List Sub
  wt : List Wt
  dst : Dst
  added : List J
  returned : List Nat
  dequeued : List J
  calls : List (Nat × J)
  done : List Nat

inductive Ev where
  /-- worker `i` moves -/
  | wrk (i : Nat)
  /-- a thread inside `thpool_add_work` moves -/
  | sub (t : Nat)
  /-- a thread inside `thpool_wait` moves -/
  | wt (t : Nat)
  /-- `thpool_add_work` is called -/
  | add (t : Nat)
  /-- `thpool_wait` is called -/
  | wait (t : Nat)
  /-- a spurious wake-up -/
  | spur
  /-- `thpool_init` returns -/
  | init
  | dst
  deriving DecidableEq

variable {J : Type}

/-- a store to the heap -/
def put (h : Nat → Option (Cell J)) (p : Nat) (c : Option (Cell J)) : Nat → Option (Cell J) :=
  fun q => if q = p then c else h q

/-- the state with the pc of worker `i` replaced -/
def Sys.atW (s : Sys J) (i : Nat) (c : Wrk) : Sys J := { s with wrk := s.wrk.set i c }
def Sys.atS (s : Sys J) (t : Nat) (c : Sub) : Sys J := { s with sub := s.sub.set t c }
def Sys.atT (s : Sys J) (t : Nat) (c : Wt) : Sys J := { s with wt := s.wt.set t c }

/-- `bsem_post`, src/thread/thpool.c:544-549. -/
inductive Post : Sys J → Sys J → Prop where
  | wake {s : Sys J} (i : Nat) : s.wrk[i]? = some .asleep → Post s { s with v := true, wrk := s.wrk.set i .woken }
  | nobody {s : Sys J} : (∀ i : Nat, s.wrk[i]? ≠ some .asleep) → Post s { s with v := true }

/-- `pthread_cond_signal(&threads_all_idle)`, src/thread/thpool.c:395. -/
inductive Notify : Sys J → Sys J → Prop where
  | wake {s : Sys J} (t : Nat) (snap) : s.wt[t]? = some (.tasleep snap) → Notify s { s with wt := s.wt.set t (.twoken snap) }
  | nobody {s : Sys J} : (∀ (t : Nat) snap, s.wt[t]? ≠ some (.tasleep snap)) → Notify s s

inductive Step : Ev → Sys J → Sys J → Prop where
  -- thread_do
  /-- src/thread/thpool.c:365-367 -/
  | boot {s : Sys J} {i} : s.wrk[i]? = some .boot → s.tc = none → Step (.wrk i) s ({ s with alive := s.alive + 1 }.atW i .test)
  /-- src/thread/thpool.c:174-178: `thpool_init` returns once all threads are alive -/
  | init {s : Sys J} : s.ready = false → s.alive = s.wrk.length → Step .init s { s with ready := true }
  /-- src/thread/thpool.c:369 -/
  | test_go {s : Sys J} {i} : s.wrk[i]? = some .test → s.keep = true → Step (.wrk i) s (s.atW i .enter)
  | test_end {s : Sys J} {i} : s.wrk[i]? = some .test → s.keep = false → Step (.wrk i) s (s.atW i .leave)
  /-- src/thread/thpool.c:563-568 -/
  | take {s : Sys J} {i} : s.wrk[i]? = some .enter ∨ s.wrk[i]? = some .woken → s.v = true →
      Step (.wrk i) s ({ s with v := false }.atW i .recheck)
  /-- src/thread/thpool.c:564-565 -/
  | sleep {s : Sys J} {i} : s.wrk[i]? = some .enter ∨ s.wrk[i]? = some .woken → s.v = false →
      Step (.wrk i) s (s.atW i .asleep)
  | spur_w {s : Sys J} {i} : s.wrk[i]? = some .asleep → Step .spur s (s.atW i .woken)
  /-- src/thread/thpool.c:373-375 -/
  | recheck_go {s : Sys J} {i} : s.wrk[i]? = some .recheck → s.keep = true → Step (.wrk i) s (s.atW i .inc)
  | recheck_end {s : Sys J} {i} : s.wrk[i]? = some .recheck → s.keep = false → Step (.wrk i) s (s.atW i .leave)
  /-- src/thread/thpool.c:377-379 -/
  | inc {s : Sys J} {i} : s.wrk[i]? = some .inc → s.tc = none →
      Step (.wrk i) s ({ s with working := s.working + 1 }.atW i .plock)
  /-- src/thread/thpool.c:484 -/
  | plock {s : Sys J} {i} : s.wrk[i]? = some .plock → s.rw = none → Step (.wrk i) s ({ s with rw := some (.wrk i) }.atW i .pread)
  /-- src/thread/thpool.c:485-490 -/
  | pread0 {s : Sys J} {i} : s.wrk[i]? = some .pread → s.len = 0 → Step (.wrk i) s (s.atW i (.punl s.front s.dequeued.length))
  /-- src/thread/thpool.c:485-487, 492 -/
  | pread1 {s : Sys J} {i} : s.wrk[i]? = some .pread → s.len = 1 → Step (.wrk i) s (s.atW i (.p1a s.front))
  /-- src/thread/thpool.c:485-487, 498 -/
  | pread2 {s : Sys J} {i} : s.wrk[i]? = some .pread → 1 < s.len → Step (.wrk i) s (s.atW i (.p2a s.front))
  /-- src/thread/thpool.c:493 -/
  | p1a {s : Sys J} {i jp} : s.wrk[i]? = some (.p1a jp) → Step (.wrk i) s ({ s with front := none }.atW i (.p1b jp))
  /-- src/thread/thpool.c:494 -/
  | p1b {s : Sys J} {i jp} : s.wrk[i]? = some (.p1b jp) → Step (.wrk i) s ({ s with rear := none }.atW i (.p1c jp))
  /-- src/thread/thpool.c:495; ghosts: the job at `job_p` is dequeued -/
  | p1c {s : Sys J} {i p c} : s.wrk[i]? = some (.p1c (some p)) → s.heap p = some c →
      Step (.wrk i) s ({ s with len := 0, dequeued := s.dequeued ++ [c.job],
                                heap := put s.heap p (some { c with own := .wrk i s.dequeued.length })
                                 }.atW i (.punl (some p) s.dequeued.length))
  | p1c_ub {s : Sys J} {i jp} : s.wrk[i]? = some (.p1c jp) → (∀ p, jp = some p → s.heap p = none) →
      Step (.wrk i) s (s.atW i .ub)
  /-- src/thread/thpool.c:499 -/
  | p2a {s : Sys J} {i p c} : s.wrk[i]? = some (.p2a (some p)) → s.heap p = some c →
      Step (.wrk i) s ({ s with front := c.prev }.atW i (.p2b (some p)))
  | p2a_ub {s : Sys J} {i jp} : s.wrk[i]? = some (.p2a jp) → (∀ p, jp = some p → s.heap p = none) →
      Step (.wrk i) s (s.atW i .ub)
  /-- src/thread/thpool.c:500; ghosts as in `p1c` -/
  | p2b {s : Sys J} {i p c} : s.wrk[i]? = some (.p2b (some p)) → s.heap p = some c →
      Step (.wrk i) s ({ s with len := s.len - 1, dequeued := s.dequeued ++ [c.job],
                                heap := put s.heap p (some { c with own := .wrk i s.dequeued.length })
                                 }.atW i (.p2c (some p) s.dequeued.length))
  | p2b_ub {s : Sys J} {i jp} : s.wrk[i]? = some (.p2b jp) → (∀ p, jp = some p → s.heap p = none) →
      Step (.wrk i) s (s.atW i .ub)
  /-- src/thread/thpool.c:502 -/
  | p2c {s u : Sys J} {i jp id} : s.wrk[i]? = some (.p2c jp id) → Post s u → Step (.wrk i) s (u.atW i (.punl jp id))
  /-- src/thread/thpool.c:507-508 -/
  | punl {s : Sys J} {i jp id} : s.wrk[i]? = some (.punl jp id) → Step (.wrk i) s ({ s with rw := none }.atW i (.call jp id))
  /-- src/thread/thpool.c:385: no job -/
  | call_none {s : Sys J} {i id} : s.wrk[i]? = some (.call none id) → Step (.wrk i) s (s.atW i .dec)
  /-- src/thread/thpool.c:385-388: the function is entered -/
  | call {s : Sys J} {i p id c} : s.wrk[i]? = some (.call (some p) id) → s.heap p = some c →
      Step (.wrk i) s ({ s with calls := s.calls ++ [(id, c.job)] }.atW i (.running p id))
  | call_ub {s : Sys J} {i p id} : s.wrk[i]? = some (.call (some p) id) → s.heap p = none → Step (.wrk i) s (s.atW i .ub)
  /-- src/thread/thpool.c:388: the function returns -/
  | ret {s : Sys J} {i p id} : s.wrk[i]? = some (.running p id) →
      Step (.wrk i) s ({ s with done := s.done ++ [id] }.atW i (.free p id))
  /-- src/thread/thpool.c:389 -/
  | free {s : Sys J} {i p id c} : s.wrk[i]? = some (.free p id) → s.heap p = some c →
      Step (.wrk i) s ({ s with heap := put s.heap p none }.atW i .dec)
  | free_ub {s : Sys J} {i p id} : s.wrk[i]? = some (.free p id) → s.heap p = none → Step (.wrk i) s (s.atW i .ub)
  /-- src/thread/thpool.c:392-397 -/
  | dec {s : Sys J} {i} : s.wrk[i]? = some .dec → s.tc = none → s.working - 1 ≠ 0 →
      Step (.wrk i) s ({ s with working := s.working - 1 }.atW i .test)
  | dec_last {s u : Sys J} {i} : s.wrk[i]? = some .dec → s.tc = none → s.working - 1 = 0 →
      Notify { s with working := s.working - 1 } u → Step (.wrk i) s (u.atW i .test)
  /-- src/thread/thpool.c:399-400 -/
  | leave {s : Sys J} {i} : s.wrk[i]? = some .leave → s.tc = none →
      Step (.wrk i) s ({ s with alive := s.alive - 1, tc := some (.left i) }.atW i .left)
  /-- src/thread/thpool.c:401-403 -/
  | left {s : Sys J} {i} : s.wrk[i]? = some .left → Step (.wrk i) s ({ s with tc := none }.atW i .gone)
  -- thpool_add_work
  /-- src/thread/thpool.c:190-198, with `malloc` succeeding (if it fails, or the function is NULL, nothing happens) -/
  | add {s : Sys J} {t p} (j : J) : s.sub[t]? = some .idle → s.ready = true → s.dst = .no → s.heap p = none →
      Step (.add t) s ({ s with heap := put s.heap p (some ⟨none, j, .sub t⟩) }.atS t (.slock p))
  /-- src/thread/thpool.c:456 -/
  | slock {s : Sys J} {t p} : s.sub[t]? = some (.slock p) → s.rw = none →
      Step (.sub t) s ({ s with rw := some (.sub t) }.atS t (.s0 p))
  /-- src/thread/thpool.c:457 -/
  | s0 {s : Sys J} {t p c} : s.sub[t]? = some (.s0 p) → s.heap p = some c →
      Step (.sub t) s ({ s with heap := put s.heap p (some { c with prev := none }) }.atS t (.s1 p))
  | s0_ub {s : Sys J} {t p} : s.sub[t]? = some (.s0 p) → s.heap p = none → Step (.sub t) s (s.atS t .ub)
  /-- src/thread/thpool.c:459-462 -/
  | s1_empty {s : Sys J} {t p} : s.sub[t]? = some (.s1 p) → s.len = 0 → Step (.sub t) s ({ s with front := some p }.atS t (.s2 p))
  /-- src/thread/thpool.c:459, 467 -/
  | s1 {s : Sys J} {t p r c} : s.sub[t]? = some (.s1 p) → s.len ≠ 0 → s.rear = some r → s.heap r = some c →
      Step (.sub t) s ({ s with heap := put s.heap r (some { c with prev := some p }) }.atS t (.s2 p))
  | s1_ub {s : Sys J} {t p} : s.sub[t]? = some (.s1 p) → s.len ≠ 0 → (∀ r, s.rear = some r → s.heap r = none) →
      Step (.sub t) s (s.atS t .ub)
  /-- src/thread/thpool.c:463, 468 -/
  | s2 {s : Sys J} {t p} : s.sub[t]? = some (.s2 p) → Step (.sub t) s ({ s with rear := some p }.atS t (.s3 p))
  /-- src/thread/thpool.c:472; ghost: the job at `newjob` is in the queue -/
  | s3 {s : Sys J} {t p c} : s.sub[t]? = some (.s3 p) → s.heap p = some c →
      Step (.sub t) s ({ s with len := s.len + 1, added := s.added ++ [c.job],
                                heap := put s.heap p (some { c with own := .queue s.added.length })
                                 }.atS t (.s4 s.added.length))
  | s3_ub {s : Sys J} {t p} : s.sub[t]? = some (.s3 p) → s.heap p = none → Step (.sub t) s (s.atS t .ub)
  /-- src/thread/thpool.c:474 -/
  | s4 {s u : Sys J} {t id} : s.sub[t]? = some (.s4 id) → Post s u → Step (.sub t) s (u.atS t (.s5 id))
  /-- src/thread/thpool.c:475, 203 -/
  | s5 {s : Sys J} {t id} : s.sub[t]? = some (.s5 id) →
      Step (.sub t) s ({ s with rw := none, returned := s.returned ++ [id] }.atS t .idle)
  -- thpool_wait
  | wait {s : Sys J} {t} : s.wt[t]? = some .idle → s.ready = true → s.dst = .no → Step (.wait t) s (s.atT t (.tlock s.returned))
  /-- src/thread/thpool.c:209 -/
  | tlock {s : Sys J} {t n} : s.wt[t]? = some (.tlock n) → s.tc = none → Step (.wt t) s ({ s with tc := some (.wt t) }.atT t (.t0 n))
  /-- src/thread/thpool.c:210 -/
  | t0_wait {s : Sys J} {t n} : s.wt[t]? = some (.t0 n) → s.len ≠ 0 → Step (.wt t) s (s.atT t (.tw n))
  | t0 {s : Sys J} {t n} : s.wt[t]? = some (.t0 n) → s.len = 0 → Step (.wt t) s (s.atT t (.t1 n))
  | t1_wait {s : Sys J} {t n} : s.wt[t]? = some (.t1 n) → s.working ≠ 0 → Step (.wt t) s (s.atT t (.tw n))
  | t1 {s : Sys J} {t n} : s.wt[t]? = some (.t1 n) → s.working = 0 → Step (.wt t) s (s.atT t (.tunl n))
  /-- src/thread/thpool.c:211 -/
  | tw {s : Sys J} {t n} : s.wt[t]? = some (.tw n) → Step (.wt t) s ({ s with tc := none }.atT t (.tasleep n))
  | spur_t {s : Sys J} {t n} : s.wt[t]? = some (.tasleep n) → Step .spur s (s.atT t (.twoken n))
  | twoken {s : Sys J} {t n} : s.wt[t]? = some (.twoken n) → s.tc = none →
      Step (.wt t) s ({ s with tc := some (.wt t) }.atT t (.t0 n))
  /-- src/thread/thpool.c:213 -/
  | tunl {s : Sys J} {t n} : s.wt[t]? = some (.tunl n) → Step (.wt t) s ({ s with tc := none }.atT t .idle)
  -- thpool_destroy: by contract not while another thread is inside `thpool_add_work` or `thpool_wait`
  /-- src/thread/thpool.c:222-225 -/
  | destroy {s : Sys J} : s.dst = .no → s.ready = true → (∀ (t : Nat) x, s.sub[t]? = some x → x = Sub.idle) →
      (∀ (t : Nat) x, s.wt[t]? = some x → x = Wt.idle) → Step .dst s { s with dst := .loop, keep := false }
  /-- src/thread/thpool.c:232, 239 -/
  | d_more {s : Sys J} : s.dst = .loop → s.alive ≠ 0 → Step .dst s { s with dst := .post }
  /-- src/thread/thpool.c:233, 240: `bsem_post_all`, 553-558 -/
  | d_post {s : Sys J} : s.dst = .post →
      Step .dst s { s with dst := .loop, v := true, wrk := s.wrk.map fun x => if x = .asleep then .woken else x }
  /-- src/thread/thpool.c:239, 244-252 -/
  | d_free {s : Sys J} : s.dst = .loop → s.alive = 0 → Step .dst s { s with dst := .freed }

/-- `thpool_init(n)`, src/thread/thpool.c:125-171: queue empty, `n` worker threads about to run. -/
def Init (s : Sys J) : Prop :=
  (∀ p, s.heap p = none) ∧ s.front = none ∧ s.rear = none ∧ s.len = 0 ∧ s.rw = none ∧ s.v = false ∧ s.keep = true ∧
  s.alive = 0 ∧ s.working = 0 ∧ s.tc = none ∧ s.ready = false ∧ (∀ (i : Nat) x, s.wrk[i]? = some x → x = Wrk.boot) ∧
  (∀ (t : Nat) x, s.sub[t]? = some x → x = Sub.idle) ∧ (∀ (t : Nat) x, s.wt[t]? = some x → x = Wt.idle) ∧ s.dst = .no ∧ s.added = [] ∧
  s.returned = [] ∧ s.dequeued = [] ∧ s.calls = [] ∧ s.done = []

/-- some steps whose events `ok` allows -/
inductive Steps (ok : Ev → Prop) : Sys J → Sys J → Prop where
  | refl (s) : Steps ok s s
  | step {s : Sys J} {t u e} : Steps ok s t → ok e → Step e t u → Steps ok s u

/-- reachable by any interleaving -/
def Reach (s : Sys J) : Prop := ∃ i, Init i ∧ Steps (fun _ => True) i s

end Verif.Thpool
