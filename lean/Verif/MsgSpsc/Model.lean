import Verif.Spsc.Model
import Verif.MsgQueue.Model
/-!
# `msg_queue.c` used by one pushing and one popping thread, without locks

`msg_queue_push` and `msg_queue_pop` as programs over the ring operations of `Verif.Spsc`.  `runW`/`runR` execute such
a program sequentially; `push_program_seq`/`pop_program_seq` (Props) show that this gives back the sequential model of
`Verif.MsgQueue`, so the programs are the same code.  NULL arguments are not modelled here.
-/
namespace Verif.MsgSpsc
open RingBuffer (Ring availRead availWrite)
open MsgQueue (Code encHdr decHdr)
open Spsc (WProg RProg)

/-- `msg_queue_push(q, msg, size)` with a readable message object. -/
structure PushCall where
  msg : List Byte
  size : BitVec 32
  ok : size.toNat ≤ msg.length

/-- the message: what `size` bytes at `msg` are -/
def PushCall.bytes (c : PushCall) : List Byte := c.msg.take c.size.toNat

/-- src/ring/msg_queue.c:52-54: after the body write -/
def pushBodyK (c : PushCall) (n : BitVec 32) : WProg Code := if n ≠ c.size then .abort else .ret .success
/-- src/ring/msg_queue.c:52: the body write -/
def pushBody (c : PushCall) : WProg Code := .write c.msg c.size (pushBodyK c)
/-- src/ring/msg_queue.c:51: after the header write -/
def pushHdrK (c : PushCall) (n : BitVec 32) : WProg Code := if n ≠ 4#32 then .abort else pushBody c
/-- src/ring/msg_queue.c:49-50: the header write -/
def pushHdr (c : PushCall) : WProg Code := .write (encHdr c.size) 4#32 (pushHdrK c)
/-- src/ring/msg_queue.c:44-47: the space check -/
def pushAvailK (c : PushCall) (a : BitVec 32) : WProg Code :=
  if a.toNat < 4 + c.size.toNat then .ret .full else pushHdr c
/-- `msg_queue_push`, src/ring/msg_queue.c:38-55. -/
def push (c : PushCall) : WProg Code := if c.size = 0#32 then .ret .nullHandle else .avail (pushAvailK c)

/-- Result of a pop: code, bytes stored, final `*msg_size_p`. -/
structure PopRes where
  code : Code
  data : List Byte
  room : BitVec 32
  deriving DecidableEq

/-- src/ring/msg_queue.c:97-99: after the body read -/
def popBodyK (room hdr : BitVec 32) (n : BitVec 32) (d : List Byte) : RProg PopRes :=
  if n ≠ hdr then .abort else .ret ⟨.success, d, room⟩
/-- src/ring/msg_queue.c:97: the body read -/
def popBody (room hdr : BitVec 32) : RProg PopRes := .read true false hdr (popBodyK room hdr)
/-- src/ring/msg_queue.c:96: after the discard -/
def popDiscardK (room hdr : BitVec 32) (n : BitVec 32) (_ : List Byte) : RProg PopRes :=
  if n ≠ 4#32 then .abort else popBody room hdr
/-- src/ring/msg_queue.c:95: the header discard -/
def popDiscard (room hdr : BitVec 32) : RProg PopRes := .read false false 4#32 (popDiscardK room hdr)
/-- src/ring/msg_queue.c:84-94: after the peek -/
def popPeekK (room a : BitVec 32) (n : BitVec 32) (d : List Byte) : RProg PopRes :=
  if n ≠ 4#32 then .abort
  else match decHdr d with
    | none => .abort
    | some hdr =>
      if a.toNat < 4 + hdr.toNat then .ret ⟨.again, [], room⟩
      else if room < hdr then .ret ⟨.bufNotEnough, [], hdr⟩
      else popDiscard room hdr
/-- src/ring/msg_queue.c:83: the header peek -/
def popPeek (room a : BitVec 32) : RProg PopRes := .read true true 4#32 (popPeekK room a)
/-- src/ring/msg_queue.c:77-81: the emptiness check -/
def popAvailK (room a : BitVec 32) : RProg PopRes :=
  if a.toNat < 4 + 1 then .ret ⟨.empty, [], room⟩ else popPeek room a
/-- `msg_queue_pop(q, buf, &room)`, src/ring/msg_queue.c:71-100. -/
def pop (room : BitVec 32) : RProg PopRes := .avail (popAvailK room)

/-- the two-thread system -/
abbrev Conf := Spsc.Conf PushCall Code (BitVec 32) PopRes

/-- states reachable by any interleaving of any calls of the two threads -/
abbrev Reach : Conf → Prop := Spsc.Reach push pop

/-- sequential execution of a writer program -/
def runW {α : Type} (r : Ring) : WProg α → Option (Ring × α)
  | .ret a => some (r, a)
  | .abort => none
  | .avail k => runW r (k (availWrite r))
  | .write src len k => match RingBuffer.write r (some src) len with
    | none => none
    | some (r, n) => runW r (k n)

/-- sequential execution of a reader program -/
def runR {α : Type} (r : Ring) : RProg α → Option (Ring × α)
  | .ret a => some (r, a)
  | .abort => none
  | .avail k => runR r (k (availRead r))
  | .read t pk len k => match RingBuffer.readInternal r t len pk with
    | none => none
    | some (r, n, d) => runR r (k n d)

end Verif.MsgSpsc
