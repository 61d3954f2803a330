import Verif.RingBuffer.Model
/-!
# Model of `src/ring/fixed_msg_queue.c`, on top of the `ringbuffer.c` model

Outcome `none` = undefined behaviour.
-/
namespace Verif.FixedMsgQueue
open RingBuffer (Ring)

/-- `struct _fixed_msg_queue_s`, src/ring/fixed_msg_queue.c:6-10. -/
structure Queue where
  ring : Ring
  one : BitVec 32

/-- `fixed_msg_queue_create`, src/ring/fixed_msg_queue.c:12-35.  `one * max` is a 32-bit (wrapping) product; the
16-byte header is added in `size_t`.  `malloc` gives the memory behind that header (`none` = failure); the ring's
own header is carved out of it by `RingBuffer_create_with_mem`.  Outer `none` = undefined behaviour, inner = NULL. -/
def create (malloc : BitVec 32 → Option Mem) (one max : BitVec 32) : Option (Option Queue) :=
  if one < 1#32 ∨ max < 1#32 then some none
  else
    match malloc (one * max) with
    | none => some none
    | some m =>
      match RingBuffer.createWithMem (some m) (one * max) with
      | none => none
      | some none => some none
      | some (some r) => some (some { ring := r, one := one })

/-- `fixed_msg_queue_available_pop_amount`, src/ring/fixed_msg_queue.c:65-69. -/
def popAmount (q : Queue) : BitVec 32 := RingBuffer.availRead q.ring / q.one
/-- `fixed_msg_queue_available_push_amount`, src/ring/fixed_msg_queue.c:71-75. -/
def pushAmount (q : Queue) : BitVec 32 := RingBuffer.availWrite q.ring / q.one
/-- `fixed_msg_queue_is_empty`, src/ring/fixed_msg_queue.c:77-80. -/
def isEmpty (q : Queue) : Bool := 0#32 == popAmount q
/-- `fixed_msg_queue_is_full`, src/ring/fixed_msg_queue.c:82-85. -/
def isFull (q : Queue) : Bool := 0#32 == pushAmount q

/-- `fixed_msg_queue_push`, src/ring/fixed_msg_queue.c:37-46 (`msg = none` is a NULL pointer). -/
def push (q : Queue) (msg : Option (List Byte)) : Option (Queue × Bool) :=
  if isFull q then some (q, false)
  else do
    let (r, n) ← RingBuffer.write q.ring msg q.one
    return ({ q with ring := r }, n == q.one)

/-- `fixed_msg_queue_pop`, src/ring/fixed_msg_queue.c:48-58: new queue, result, bytes stored to `msg_p`. -/
def pop (q : Queue) (target : Bool) : Option (Queue × Bool × List Byte) :=
  if isEmpty q || !target then some (q, false, [])
  else do
    let (r, n, d) ← RingBuffer.read q.ring target q.one
    return ({ q with ring := r }, n == q.one, d)

/-- `fixed_msg_queue_clear`, src/ring/fixed_msg_queue.c:60-63. -/
def clear (q : Queue) : Queue := { q with ring := RingBuffer.clear q.ring }

inductive Op where
  | push (msg : Option (List Byte))
  | pop (target : Bool)
  | clear
  | popAmount
  | pushAmount

inductive Out where
  | pushed (ok : Bool)
  | popped (ok : Bool) (msg : List Byte)
  | cleared
  | amount (n : Nat)
  deriving DecidableEq, Repr

def step (q : Queue) : Op → Option (Queue × Out)
  | .push m => (push q m).map fun (q, b) => (q, .pushed b)
  | .pop t => (pop q t).map fun (q, b, d) => (q, .popped b d)
  | .clear => some (clear q, .cleared)
  | .popAmount => some (q, .amount (popAmount q).toNat)
  | .pushAmount => some (q, .amount (pushAmount q).toNat)

def run (q : Queue) : List Op → Option (Queue × List Out)
  | [] => some (q, [])
  | o :: os => do
    let (q, x) ← step q o
    let (q, xs) ← run q os
    return (q, x :: xs)

end Verif.FixedMsgQueue
