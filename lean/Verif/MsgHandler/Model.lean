import Verif.MsgSpsc.Model
/-!
# Model of `src/ring/msg_queue_handler.c`: a message queue with a worker thread

A labelled transition system on top of the two-thread message queue `Verif.MsgSpsc` (whose atomic steps are the single
counter loads/stores and byte copies of the lock-free ring).  Three threads: the pushing thread (the header asks
callers to serialise pushes), the worker created by `msg_queue_handler_create`, and the destroying thread (which, as
the API demands, does not run while a push is in progress, and after which nothing is pushed).
The semaphore is a counter; `sem_wait` may also return without decrementing it (`EINTR`: the return value of
`portable_sem_wait` is ignored).  Logging, status callbacks and the 1 ms sleep are not modelled.
-/
namespace Verif.MsgHandler
open MsgQueue (Code decHdr)
open MsgSpsc (PushCall PopRes push pop)

/-- `msg_p->obj_len`, the fourth `int` of a `queue_msg_t`, inc/ring/msg_queue_handler.h:30-37 (little-endian). -/
def objLen (obj : List Byte) : BitVec 32 := (decHdr ((obj.drop 12).take 4)).getD 0#32

/-- the size argument `sizeof(queue_msg_t) + msg_p->obj_len` converted to `uint32_t`,
src/ring/msg_queue_handler.c:149 -/
def msgSize (obj : List Byte) : BitVec 32 := 16#32 + objLen obj

/-- a readable `queue_msg_t` object: its header, and as many bytes as its `obj_len` announces -/
structure Msg where
  obj : List Byte
  hdr : 16 ≤ obj.length
  ok : (msgSize obj).toNat ≤ obj.length

/-- the `msg_queue_push` call made for it, src/ring/msg_queue_handler.c:149 -/
def Msg.call (m : Msg) : PushCall := ⟨m.obj, msgSize m.obj, m.ok⟩

/-- `while (n >>= 1) ++counter;`, src/ring/msg_queue_handler.c:26-29 -/
def shiftCount (n : Nat) : Nat := if _h : n / 2 = 0 then 0 else 1 + shiftCount (n / 2)
termination_by n
decreasing_by omega

/-- `pri_roundup_power2`, src/ring/msg_queue_handler.c:21-33.  `2 << counter` is an `int` shift: undefined (`none`)
when the result exceeds `INT_MAX`. -/
def roundup (n : Nat) : Option Nat :=
  if n &&& (n - 1) ≠ 0 then
    if shiftCount n < 30 then some (2 * 2 ^ shiftCount n) else none
  else some n

/-- Pushing thread: between calls, inside `msg_queue_push`, or after its success and before `portable_sem_post`. -/
inductive Prod where
  | idle
  | pushing (m : Msg)
  | posting (m : Msg)

/-- Worker thread, src/ring/msg_queue_handler.c:44-111. -/
inductive Wrk where
  /-- lines 46-51: before `malloc(4096)` -/
  | start
  /-- top of the loop (line 64), with `last_status` -/
  | top (last : Code)
  /-- line 68: about to test `flag2exit` -/
  | check
  /-- line 73: inside `msg_queue_pop` -/
  | popping
  /-- line 96: inside the user's callback, with the message handed to it -/
  | handle (m : List Byte)
  /-- line 103: about to set `flag2exit` and return -/
  | leave
  | gone
  | ub
  deriving DecidableEq

/-- `msg_queue_handler_destroy`: not called, line 174 done, line 176 done, lines 177-178 (join) done. -/
inductive Dst where
  | no
  | flagged
  | posted
  | joined
  deriving DecidableEq

/-- Global state: queue, semaphore, `flag2exit`, program counters, `cur_msg_buf_size`, and two ghost histories:
`results` = what each returned `msg_queue_handler_push` answered, `delivered` = the callback invocations. -/
structure Sys where
  conf : MsgSpsc.Conf
  sem : Nat
  exit : Bool
  prod : Prod
  wrk : Wrk
  buf : Nat
  dst : Dst
  results : List (Msg × Code)
  delivered : List (List Byte)

/-- Who moved, and how it went. -/
inductive Ev where
  /-- a step of the pushing thread -/
  | prod
  /-- a step of the worker -/
  | wrk
  /-- `sem_wait` returned without taking a token -/
  | spurious
  /-- `malloc` failed in the worker -/
  | oom
  /-- the callback returned non-zero -/
  | stop
  /-- a step of the destroying thread -/
  | dst
  deriving DecidableEq

inductive Step : Ev → Sys → Sys → Prop where
  /-- src/ring/msg_queue_handler.c:145-148 -/
  | push_null {s} (m) : s.prod = .idle → s.dst = .no → s.exit = true →
      Step .prod s { s with results := s.results ++ [(m, .nullHandle)] }
  /-- src/ring/msg_queue_handler.c:149: `msg_queue_push` is entered -/
  | push_call {s} (m) : s.prod = .idle → s.dst = .no → s.exit = false → s.conf.w = .idle →
      Step .prod s { s with prod := .pushing m, conf := { s.conf with w := .run m.call (push m.call) } }
  /-- a step inside `msg_queue_push` -/
  | push_step {s m c} : s.prod = .pushing m → s.conf.w ≠ .idle → Spsc.Step push pop s.conf c → c.r = s.conf.r →
      c.rhist = s.conf.rhist → c.whist = s.conf.whist → Step .prod s { s with conf := c }
  /-- src/ring/msg_queue_handler.c:149-150, 154: it returns something else than success -/
  | push_fail {s m c a} : s.prod = .pushing m → s.conf.w = .run c (.ret a) → a ≠ .success →
      Step .prod s { s with prod := .idle, results := s.results ++ [(m, a)],
                            conf := { s.conf with w := .idle, whist := s.conf.whist ++ [(c, a)] } }
  /-- src/ring/msg_queue_handler.c:149-150: it returns success -/
  | push_ok {s m c a} : s.prod = .pushing m → s.conf.w = .run c (.ret a) → a = .success →
      Step .prod s { s with prod := .posting m,
                            conf := { s.conf with w := .idle, whist := s.conf.whist ++ [(c, a)] } }
  /-- src/ring/msg_queue_handler.c:152-154 -/
  | push_post {s m} : s.prod = .posting m →
      Step .prod s { s with prod := .idle, sem := s.sem + 1, results := s.results ++ [(m, .success)] }
  /-- src/ring/msg_queue_handler.c:50-51, 60-61 -/
  | boot {s} : s.wrk = .start → Step .wrk s { s with wrk := .top .success, buf := 4096 }
  /-- src/ring/msg_queue_handler.c:52-58 -/
  | boot_oom {s} : s.wrk = .start → Step .oom s { s with wrk := .gone, exit := true }
  /-- src/ring/msg_queue_handler.c:64-67 -/
  | wait {s last} : s.wrk = .top last → (last = .success ∨ last = .empty) → 0 < s.sem →
      Step .wrk s { s with wrk := .check, sem := s.sem - 1 }
  | wait_spurious {s last} : s.wrk = .top last → (last = .success ∨ last = .empty) →
      Step .spurious s { s with wrk := .check }
  | nowait {s last} : s.wrk = .top last → ¬(last = .success ∨ last = .empty) → Step .wrk s { s with wrk := .check }
  /-- src/ring/msg_queue_handler.c:68-71 -/
  | quit {s} : s.wrk = .check → s.exit = true → Step .wrk s { s with wrk := .leave }
  /-- src/ring/msg_queue_handler.c:72-73: `msg_queue_pop` is entered with room `(uint32_t)cur_msg_buf_size` -/
  | pop_call {s} : s.wrk = .check → s.exit = false → s.conf.r = .idle →
      Step .wrk s { s with wrk := .popping,
                           conf := { s.conf with r := .run (BitVec.ofNat 32 s.buf) (pop (BitVec.ofNat 32 s.buf)) } }
  /-- a step inside `msg_queue_pop` -/
  | pop_step {s c} : s.wrk = .popping → s.conf.r ≠ .idle → Spsc.Step push pop s.conf c → c.w = s.conf.w →
      c.whist = s.conf.whist → c.rhist = s.conf.rhist → Step .wrk s { s with conf := c }
  /-- src/ring/msg_queue_handler.c:95-96: it returns success; the callback is entered -/
  | pop_ok {s c a} : s.wrk = .popping → s.conf.r = .run c (.ret a) → a.code = .success →
      Step .wrk s { s with wrk := .handle a.data, delivered := s.delivered ++ [a.data],
                           conf := { s.conf with r := .idle, rhist := s.conf.rhist ++ [(c, a)] } }
  /-- src/ring/msg_queue_handler.c:76-80, 86, 92 -/
  | pop_grow {s c a n} : s.wrk = .popping → s.conf.r = .run c (.ret a) → a.code = .bufNotEnough →
      roundup a.room.toNat = some n →
      Step .wrk s { s with wrk := .top a.code, buf := n,
                           conf := { s.conf with r := .idle, rhist := s.conf.rhist ++ [(c, a)] } }
  /-- src/ring/msg_queue_handler.c:81-84 -/
  | pop_grow_oom {s c a n} : s.wrk = .popping → s.conf.r = .run c (.ret a) → a.code = .bufNotEnough →
      roundup a.room.toNat = some n →
      Step .oom s { s with wrk := .leave,
                           conf := { s.conf with r := .idle, rhist := s.conf.rhist ++ [(c, a)] } }
  /-- src/ring/msg_queue_handler.c:79 (30) with an undefined shift -/
  | pop_grow_ub {s c a} : s.wrk = .popping → s.conf.r = .run c (.ret a) → a.code = .bufNotEnough →
      roundup a.room.toNat = none →
      Step .wrk s { s with wrk := .ub,
                           conf := { s.conf with r := .idle, rhist := s.conf.rhist ++ [(c, a)] } }
  /-- src/ring/msg_queue_handler.c:74, 88-92: any other code -/
  | pop_retry {s c a} : s.wrk = .popping → s.conf.r = .run c (.ret a) → a.code ≠ .success →
      a.code ≠ .bufNotEnough →
      Step .wrk s { s with wrk := .top a.code,
                           conf := { s.conf with r := .idle, rhist := s.conf.rhist ++ [(c, a)] } }
  /-- the callback returns 0; `last_status` is still SUCCESS -/
  | cb_ok {s m} : s.wrk = .handle m → Step .wrk s { s with wrk := .top .success }
  /-- src/ring/msg_queue_handler.c:96-100: the callback returns non-zero -/
  | cb_stop {s m} : s.wrk = .handle m → Step .stop s { s with wrk := .leave }
  /-- src/ring/msg_queue_handler.c:103-110 -/
  | leave {s} : s.wrk = .leave → Step .wrk s { s with wrk := .gone, exit := true }
  /-- src/ring/msg_queue_handler.c:174 -/
  | d_flag {s} : s.dst = .no → s.prod = .idle → Step .dst s { s with dst := .flagged, exit := true }
  /-- src/ring/msg_queue_handler.c:176 -/
  | d_post {s} : s.dst = .flagged → Step .dst s { s with dst := .posted, sem := s.sem + 1 }
  /-- src/ring/msg_queue_handler.c:177-181: the join returns when the worker has -/
  | d_join {s} : s.dst = .posted → s.wrk = .gone → Step .dst s { s with dst := .joined }

/-- A freshly created handler (`msg_queue_handler_create`, src/ring/msg_queue_handler.c:113-141): empty queue,
semaphore 0, worker about to run. -/
def Init (s : Sys) : Prop :=
  Spsc.Init s.conf ∧ s.sem = 0 ∧ s.exit = false ∧ s.prod = .idle ∧ s.wrk = .start ∧ s.dst = .no ∧
  s.results = [] ∧ s.delivered = []

/-- some steps, by anyone whose move `ok` allows -/
inductive Steps (ok : Ev → Prop) : Sys → Sys → Prop where
  | refl (s) : Steps ok s s
  | step {s t u e} : Steps ok s t → ok e → Step e t u → Steps ok s u

/-- reachable by any interleaving -/
def Reach (s : Sys) : Prop := ∃ i, Init i ∧ Steps (fun _ => True) i s

end Verif.MsgHandler
