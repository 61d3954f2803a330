import Verif.Spsc.Model
import Verif.FixedMsgQueue.Model
/-!
# `fixed_msg_queue.c` used by one pushing and one popping thread, without locks

`fixed_msg_queue_push` and `fixed_msg_queue_pop` as programs over the ring operations of `Verif.Spsc`.
`push_program_seq`/`pop_program_seq` (Props) show that, run alone, they are the sequential model of
`Verif.FixedMsgQueue`.  NULL arguments are not modelled here.
-/
namespace Verif.FixedSpsc
open RingBuffer (Ring availRead availWrite)
open Spsc (WProg RProg)

/-- `fixed_msg_queue_push(q, msg)` with a readable message object of `one` bytes at least. -/
structure PushCall (one : BitVec 32) where
  msg : List Byte
  ok : one.toNat ≤ msg.length

/-- the message: what `one` bytes at `msg` are -/
def PushCall.bytes {one : BitVec 32} (c : PushCall one) : List Byte := c.msg.take one.toNat

/-- src/ring/fixed_msg_queue.c:43-45: after the write -/
def pushK (one n : BitVec 32) : WProg Bool := .ret (n == one)
/-- src/ring/fixed_msg_queue.c:43: the write -/
def pushWrite {one : BitVec 32} (c : PushCall one) : WProg Bool := .write c.msg one (pushK one)
/-- src/ring/fixed_msg_queue.c:39-42: the fullness check (`available / one == 0`) -/
def pushAvailK {one : BitVec 32} (c : PushCall one) (a : BitVec 32) : WProg Bool :=
  if 0#32 = a / one then .ret false else pushWrite c
/-- `fixed_msg_queue_push`, src/ring/fixed_msg_queue.c:37-46. -/
def push (one : BitVec 32) (c : PushCall one) : WProg Bool := .avail (pushAvailK c)

/-- src/ring/fixed_msg_queue.c:55-57: after the read; the message popped, or `none` for `false` -/
def popK (one n : BitVec 32) (d : List Byte) : RProg (Option (List Byte)) := .ret (if n == one then some d else none)
/-- src/ring/fixed_msg_queue.c:55: the read -/
def popRead (one : BitVec 32) : RProg (Option (List Byte)) := .read true false one (popK one)
/-- src/ring/fixed_msg_queue.c:51-54: the emptiness check -/
def popAvailK (one a : BitVec 32) : RProg (Option (List Byte)) := if 0#32 = a / one then .ret none else popRead one
/-- `fixed_msg_queue_pop`, src/ring/fixed_msg_queue.c:48-58. -/
def pop (one : BitVec 32) (_ : Unit) : RProg (Option (List Byte)) := .avail (popAvailK one)

/-- the two-thread system -/
abbrev Conf (one : BitVec 32) := Spsc.Conf (PushCall one) Bool Unit (Option (List Byte))

/-- states reachable by any interleaving of any calls of the two threads -/
abbrev Reach (one : BitVec 32) : Conf one → Prop := Spsc.Reach (push one) (pop one)

end Verif.FixedSpsc
