import Verif.FixedSpsc.Model
import Verif.MsgQueue.Model
/-!
# Model of `src/ring/fixed_msg_queue_handler.c`: a fixed-size message queue with a worker thread and `clear`

Labelled transition system on top of the two-thread queue `Verif.FixedSpsc`.  Threads: the pushing thread (callers
serialise pushes: "we should lock it on multi-thread, let user do it"), the worker, a clearing thread (`clear` is a load
of `token_counter` followed by a store of `min_valid_token`, at any time, also in the middle of a push or a callback;
calls of `clear` do not overlap each other), and the destroying thread.
`one` is `sizeof(fixed_handler_msg_t)`: 8 bytes of token and the user's `fixed_msg_t`
(src/ring/fixed_msg_queue_handler.c:10-14; 8 + 1040 = 1048 in the library); the model allows any size.
-/
namespace Verif.FixedHandler
open MsgQueue (Code)
open FixedSpsc (PushCall push pop)

/-- little-endian bytes of an `n`-byte unsigned integer -/
def le : Nat → Nat → List Byte
  | 0, _ => []
  | n + 1, t => UInt8.ofNat (t % 256) :: le n (t / 256)

/-- the unsigned integer stored little-endian -/
def unle : List Byte → Nat
  | [] => 0
  | b :: bs => b.toNat + 256 * unle bs

/-- a `fixed_msg_t` object -/
structure Msg (one : BitVec 32) where
  body : List Byte
  len : 8 + body.length = one.toNat

/-- `msg_send_cache` as filled at src/ring/fixed_msg_queue_handler.c:116-118 -/
def cache {one : BitVec 32} (token : BitVec 64) (m : Msg one) : PushCall one :=
  ⟨le 8 token.toNat ++ m.body, by have := m.len; simp [le]; omega⟩

/-- Pushing thread: between calls; inside `fixed_msg_queue_push`; after its success; after `++token_counter`. -/
inductive Prod (one : BitVec 32) where
  | idle
  | pushing (m : Msg one)
  | counting (m : Msg one)
  | posting (m : Msg one)

/-- Worker thread, src/ring/fixed_msg_queue_handler.c:39-77. -/
inductive Wrk where
  /-- line 49: at the semaphore -/
  | top
  /-- line 50: about to test `flag2exit` -/
  | check
  /-- line 54: inside `fixed_msg_queue_pop` -/
  | popping
  /-- line 58: popped `handler_msg`, about to compare its token -/
  | got (d : List Byte)
  /-- line 60: the comparison passed, the callback is not entered yet -/
  | passed (token : Nat) (body : List Byte)
  /-- line 60: inside the callback -/
  | handle
  /-- line 73 -/
  | leave
  | gone
  deriving DecidableEq

/-- `fixed_msg_queue_handler_destroy`: not called, line 165 done, line 167 done, lines 168-169 (join) done. -/
inductive Dst where
  | no
  | flagged
  | posted
  | joined
  deriving DecidableEq

/-- Global state.  `clr` = the value loaded by a `clear` in progress.  Ghosts: `results` of the returned pushes,
`delivered` = callback invocations (the token of the message and the `fixed_msg_t` passed). -/
structure Sys (one : BitVec 32) where
  conf : FixedSpsc.Conf one
  sem : Nat
  exit : Bool
  counter : BitVec 64
  minTok : BitVec 64
  prod : Prod one
  wrk : Wrk
  clr : Option (BitVec 64)
  dst : Dst
  results : List (Msg one × Code)
  delivered : List (Nat × List Byte)

inductive Ev where
  | prod
  | wrk
  | spurious
  | stop
  | clr
  | dst
  deriving DecidableEq

variable {one : BitVec 32}

inductive Step : Ev → Sys one → Sys one → Prop where
  /-- src/ring/fixed_msg_queue_handler.c:111-114 -/
  | push_null {s} (m) : s.prod = .idle → s.dst = .no → s.exit = true →
      Step .prod s { s with results := s.results ++ [(m, .nullHandle)] }
  /-- src/ring/fixed_msg_queue_handler.c:116-120 -/
  | push_call {s} (m) : s.prod = .idle → s.dst = .no → s.exit = false → s.conf.w = .idle →
      Step .prod s { s with prod := .pushing m,
                            conf := { s.conf with w := .run (cache s.counter m) (push one (cache s.counter m)) } }
  /-- a step inside `fixed_msg_queue_push` -/
  | push_step {s m c} : s.prod = .pushing m → s.conf.w ≠ .idle → Spsc.Step (push one) (pop one) s.conf c →
      c.r = s.conf.r → c.rhist = s.conf.rhist → c.whist = s.conf.whist → Step .prod s { s with conf := c }
  /-- src/ring/fixed_msg_queue_handler.c:120-124 -/
  | push_full {s m c} : s.prod = .pushing m → s.conf.w = .run c (.ret false) →
      Step .prod s { s with prod := .idle, results := s.results ++ [(m, .full)],
                            conf := { s.conf with w := .idle, whist := s.conf.whist ++ [(c, false)] } }
  /-- src/ring/fixed_msg_queue_handler.c:120 -/
  | push_ok {s m c} : s.prod = .pushing m → s.conf.w = .run c (.ret true) →
      Step .prod s { s with prod := .counting m,
                            conf := { s.conf with w := .idle, whist := s.conf.whist ++ [(c, true)] } }
  /-- src/ring/fixed_msg_queue_handler.c:126 -/
  | push_count {s m} : s.prod = .counting m → Step .prod s { s with prod := .posting m, counter := s.counter + 1#64 }
  /-- src/ring/fixed_msg_queue_handler.c:127-128 -/
  | push_post {s m} : s.prod = .posting m →
      Step .prod s { s with prod := .idle, sem := s.sem + 1, results := s.results ++ [(m, .success)] }
  /-- src/ring/fixed_msg_queue_handler.c:49 -/
  | wait {s} : s.wrk = .top → 0 < s.sem → Step .wrk s { s with wrk := .check, sem := s.sem - 1 }
  /-- src/ring/fixed_msg_queue_handler.c:49, interrupted (`EINTR`) -/
  | wait_spurious {s} : s.wrk = .top → Step .spurious s { s with wrk := .check }
  /-- src/ring/fixed_msg_queue_handler.c:50-53 -/
  | quit {s} : s.wrk = .check → s.exit = true → Step .wrk s { s with wrk := .leave }
  /-- src/ring/fixed_msg_queue_handler.c:54 -/
  | pop_call {s} : s.wrk = .check → s.exit = false → s.conf.r = .idle →
      Step .wrk s { s with wrk := .popping, conf := { s.conf with r := .run () (pop one ()) } }
  /-- a step inside `fixed_msg_queue_pop` -/
  | pop_step {s c} : s.wrk = .popping → s.conf.r ≠ .idle → Spsc.Step (push one) (pop one) s.conf c → c.w = s.conf.w →
      c.whist = s.conf.whist → c.rhist = s.conf.rhist → Step .wrk s { s with conf := c }
  /-- src/ring/fixed_msg_queue_handler.c:54-57 -/
  | pop_none {s c} : s.wrk = .popping → s.conf.r = .run c (.ret none) →
      Step .wrk s { s with wrk := .top, conf := { s.conf with r := .idle, rhist := s.conf.rhist ++ [(c, none)] } }
  /-- src/ring/fixed_msg_queue_handler.c:54 -/
  | pop_some {s c d} : s.wrk = .popping → s.conf.r = .run c (.ret (some d)) →
      Step .wrk s { s with wrk := .got d,
                           conf := { s.conf with r := .idle, rhist := s.conf.rhist ++ [(c, some d)] } }
  /-- src/ring/fixed_msg_queue_handler.c:58: loads `min_valid_token`, token large enough -/
  | pass {s d} : s.wrk = .got d → s.minTok.toNat ≤ unle (d.take 8) →
      Step .wrk s { s with wrk := .passed (unle (d.take 8)) (d.drop 8) }
  /-- src/ring/fixed_msg_queue_handler.c:58, 66-70 -/
  | abandon {s d} : s.wrk = .got d → ¬ s.minTok.toNat ≤ unle (d.take 8) → Step .wrk s { s with wrk := .top }
  /-- src/ring/fixed_msg_queue_handler.c:60: the callback is entered -/
  | enter {s k b} : s.wrk = .passed k b → Step .wrk s { s with wrk := .handle, delivered := s.delivered ++ [(k, b)] }
  /-- it returns 0 -/
  | cb_ok {s} : s.wrk = .handle → Step .wrk s { s with wrk := .top }
  /-- src/ring/fixed_msg_queue_handler.c:60-64: it returns non-zero -/
  | cb_stop {s} : s.wrk = .handle → Step .stop s { s with wrk := .leave }
  /-- src/ring/fixed_msg_queue_handler.c:73-76 -/
  | leave {s} : s.wrk = .leave → Step .wrk s { s with wrk := .gone, exit := true }
  /-- src/ring/fixed_msg_queue_handler.c:153: loads `token_counter` -/
  | clear_load {s} : s.clr = none → Step .clr s { s with clr := some s.counter }
  /-- src/ring/fixed_msg_queue_handler.c:153: stores `min_valid_token` -/
  | clear_store {s v} : s.clr = some v → Step .clr s { s with clr := none, minTok := v }
  /-- src/ring/fixed_msg_queue_handler.c:165 -/
  | d_flag {s} : s.dst = .no → s.prod = .idle → Step .dst s { s with dst := .flagged, exit := true }
  /-- src/ring/fixed_msg_queue_handler.c:167 -/
  | d_post {s} : s.dst = .flagged → Step .dst s { s with dst := .posted, sem := s.sem + 1 }
  /-- src/ring/fixed_msg_queue_handler.c:168-172 -/
  | d_join {s} : s.dst = .posted → s.wrk = .gone → Step .dst s { s with dst := .joined }

/-- `fixed_msg_queue_handler_create`, src/ring/fixed_msg_queue_handler.c:79-107: empty queue, semaphore and tokens 0,
worker running. -/
def Init (s : Sys one) : Prop :=
  Spsc.Init s.conf ∧ s.sem = 0 ∧ s.exit = false ∧ s.counter = 0#64 ∧ s.minTok = 0#64 ∧ s.prod = .idle ∧ s.wrk = .top ∧
  s.clr = none ∧ s.dst = .no ∧ s.results = [] ∧ s.delivered = []

/-- some steps, by anyone whose move `ok` allows -/
inductive Steps (ok : Ev → Prop) : Sys one → Sys one → Prop where
  | refl (s) : Steps ok s s
  | step {s t u e} : Steps ok s t → ok e → Step e t u → Steps ok s u

/-- reachable by any interleaving -/
def Reach (s : Sys one) : Prop := ∃ i, Init i ∧ Steps (fun _ => True) i s

end Verif.FixedHandler
