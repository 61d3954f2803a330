import Verif.RingBuffer.Model
/-!
# Model of `src/ring/msg_queue.c`, on top of the `ringbuffer.c` model

Outcome `none` = undefined behaviour or `ASSERT_ABORT` firing.
-/
namespace Verif.MsgQueue
open RingBuffer (Ring)

/-- `msg_q_code_e`, inc/ring/msg_queue_errno.h. -/
inductive Code where
  | success | genericFail | nullHandle | again | empty | full | bufNotEnough
  deriving DecidableEq, Repr

/-- The four bytes of a `msg_header_t` (src/ring/msg_queue.c:11-14) holding `n`; little-endian host. -/
def encHdr (n : BitVec 32) : List Byte :=
  [UInt8.ofNat (n.toNat % 256), UInt8.ofNat (n.toNat / 256 % 256),
   UInt8.ofNat (n.toNat / 65536 % 256), UInt8.ofNat (n.toNat / 16777216 % 256)]

/-- The `msg_size` field of a header with the given bytes (fewer than four bytes: indeterminate, `none`). -/
def decHdr : List Byte → Option (BitVec 32)
  | [a, b, c, d] => some (BitVec.ofNat 32 (a.toNat + 256 * b.toNat + 65536 * c.toNat + 16777216 * d.toNat))
  | _ => none

/-- `msg_queue_create`, src/ring/msg_queue.c:16-36.  Outer `none` = undefined behaviour, inner = NULL.  `malloc`
yields the memory behind the 8-byte queue struct. -/
def create (malloc : BitVec 32 → Option Mem) (bufSize : BitVec 32) : Option (Option Ring) :=
  if bufSize < 8#32 then some none
  else
    match malloc bufSize with
    | none => some none
    | some m => RingBuffer.createWithMem (some m) bufSize

/-- `msg_queue_push`, src/ring/msg_queue.c:38-55.  The comparison is done in `size_t`, hence in `Nat` here. -/
def push (r : Ring) (msg : Option (List Byte)) (size : BitVec 32) : Option (Ring × Code) :=
  match msg with
  | none => some (r, .nullHandle)
  | some m =>
    if size = 0#32 then some (r, .nullHandle)
    else if (RingBuffer.availWrite r).toNat < 4 + size.toNat then some (r, .full)
    else do
      let (r, n) ← RingBuffer.write r (some (encHdr size)) 4#32
      if n ≠ 4#32 then none
      let (r, n) ← RingBuffer.write r (some m) size
      if n ≠ size then none
      return (r, .success)

/-- `msg_queue_next_msg_size`, src/ring/msg_queue.c:57-69. -/
def nextSize (r : Ring) : Option (BitVec 32) :=
  if (RingBuffer.availRead r).toNat < 4 + 1 then some 0#32
  else do
    let (_, n, d) ← RingBuffer.peek r true 4#32
    if n ≠ 4#32 then none
    decHdr d

/-- `msg_queue_pop`, src/ring/msg_queue.c:71-100.  `sizep = none` is a NULL `msg_size_p`; the result holds the
code, the bytes stored to `msg_p` and the final value of `*msg_size_p`. -/
def pop (r : Ring) (target : Bool) (sizep : Option (BitVec 32)) :
    Option (Ring × Code × List Byte × Option (BitVec 32)) :=
  match sizep with
  | none => some (r, .nullHandle, [], none)
  | some room =>
    if !target then some (r, .nullHandle, [], some room)
    else
      let avail := RingBuffer.availRead r
      if avail.toNat < 4 + 1 then some (r, .empty, [], some room)
      else do
        let (_, n, d) ← RingBuffer.peek r true 4#32
        if n ≠ 4#32 then none
        let hdr ← decHdr d
        if avail.toNat < 4 + hdr.toNat then return (r, .again, [], some room)
        if room < hdr then return (r, .bufNotEnough, [], some hdr)
        let (r, n, _) ← RingBuffer.discard r 4#32
        if n ≠ 4#32 then none
        let (r, n, d) ← RingBuffer.read r true hdr
        if n ≠ hdr then none
        return (r, .success, d, some room)

/-- `msg_queue_clear`, src/ring/msg_queue.c:102-106. -/
def clear (r : Ring) : Ring := RingBuffer.clear r

inductive Op where
  | push (msg : Option (List Byte)) (size : BitVec 32)
  | pop (target : Bool) (sizep : Option (BitVec 32))
  | nextSize
  | clear
  | popBytes
  | pushBytes

inductive Out where
  | pushed (c : Code)
  | popped (c : Code) (data : List Byte) (sizep : Option Nat)
  | num (n : Nat)
  | cleared
  deriving DecidableEq, Repr

/-- One call; `popBytes`/`pushBytes` are `msg_queue_available_{pop,push}_bytes`, src/ring/msg_queue.c:108-118. -/
def step (r : Ring) : Op → Option (Ring × Out)
  | .push m s => (push r m s).map fun (r, c) => (r, .pushed c)
  | .pop t s => (pop r t s).map fun (r, c, d, s) => (r, .popped c d (s.map (·.toNat)))
  | .nextSize => (nextSize r).map fun n => (r, .num n.toNat)
  | .clear => some (clear r, .cleared)
  | .popBytes => some (r, .num (RingBuffer.availRead r).toNat)
  | .pushBytes => some (r, .num (RingBuffer.availWrite r).toNat)

def run (r : Ring) : List Op → Option (Ring × List Out)
  | [] => some (r, [])
  | o :: os => do
    let (r, x) ← step r o
    let (r, xs) ← run r os
    return (r, x :: xs)

end Verif.MsgQueue
