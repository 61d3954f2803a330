import Verif.Common.LockedMore
import Verif.FileLogger.Model
/-!
# Model of `file_logger_log` under threads

src/log/file_logger.c 122-178, with `cfg.lock` set: any number of threads log at the same time.  Between `acquire` and
`release` a call works on the shared handle in pieces (each read or assignment of `msg_cache_p` and
`cur_msg_obj_capacity`, each `memcpy`, `realloc`, push is one piece; other threads run in between).  The lock is a mutex; what
`acquire` returns is ignored by the code (40-48), so a lock whose `acquire` can fail is outside the model.  `realloc` always moves
the block.  The queue's answers are arbitrary (the worker empties it at any speed); the queue itself is C51, what happens to
the lines afterwards is C65.
-/
namespace Verif.FileLoggerMt
open Verif.Locked
open Verif.MsgQueue (Code encHdr)
open Verif.FileLogger (realloc printed prec)

/-- What the threads share. -/
structure Sh where
  /-- `handle->msg_cache_p` -/
  ptr : Nat
  /-- `handle->cur_msg_obj_capacity` -/
  cap : Nat
  /-- the live heap blocks of the logger -/
  heap : Nat → Option Mem
  /-- a place not used yet -/
  next : Nat
  /-- what has been given to `msg_queue_handler_push`, with its answer -/
  pushed : List (Mem × Code)
  /-- the file `*_lost.log` -/
  lost : List Byte

/-- file_logger.c 68-81: after `file_logger_init`. -/
def Sh.init : Sh := ⟨0, 2048, fun a => if a = 0 then some (List.replicate (16 + 2048) 0) else none, 1, [], []⟩

/-- One call of `file_logger_log`, with what its environment answers: `realloc`, the pushes, `fopen` of the lost file. -/
structure Call where
  msg : List Byte
  mem : Nat → Option Mem
  push : Nat → Code
  lostOk : Bool
  /-- shorter than 2^31 bytes (see `FileLogger.huge_message_overflows` for others) -/
  small : msg.length < 2 ^ 31
  /-- `realloc` gives what was asked for -/
  memOk : ∀ n b, mem n = some b → b.length = n

abbrev P := Prog Sh

def rdPtr : P Nat := read (·.ptr)
def rdCap : P Nat := read (·.cap)

/-- `realloc(p, n)`: `none` if there is no memory; undefined if `p` is no live block. -/
def reallocP (p n : Nat) (junk : Option Mem) : P (Option Nat) :=
  .act (fun s => match s.heap p with
    | none => none
    | some old => match junk with
      | none => some s
      | some j => some { s with
        heap := fun a => if a = s.next then some (realloc old n j) else if a = p then none else s.heap a
        next := s.next + 1 })
    fun s => .ret (junk.map fun _ => s.next)

/-- `memcpy(p + off, bs, |bs|)`: undefined outside a live block. -/
def storeP (p off : Nat) (bs : List Byte) : P Unit :=
  change fun s => (s.heap p).bind fun m => (m.store off bs).map fun m' => { s with
    heap := fun a => if a = p then some m' else s.heap a }

/-- `msg_queue_handler_push(queue, p)`, answering `c`. -/
def pushP (p : Nat) (c : Code) : P Unit :=
  change fun s => (s.heap p).map fun m => { s with
    pushed := s.pushed ++ [(m, c)] }

/-- file_logger.c 131-143: enlarge the cache if needed; `false`: no memory. -/
def growP (c : Call) : P Bool := do
  let cap ← rdCap
  if c.msg.length > cap then do
    let n := (Integer.roundup (BitVec.ofNat 32 c.msg.length)).toNat
    let p ← rdPtr
    let q ← reallocP p (16 + n) (c.mem (16 + n))
    match q with
    | none => return false
    | some q => do
      change fun s => some { s with ptr := q }
      change fun s => some { s with cap := n }
      return true
  else return true

/-- file_logger.c 131-147: one round of the loop; `none`: no memory. -/
def once (c : Call) (i : Nat) : P (Option Code) := do
  let ok ← growP c
  if ok then do
    let p ← rdPtr
    storeP p 16 c.msg
    let p ← rdPtr
    storeP p 12 (encHdr (BitVec.ofNat 32 c.msg.length))
    let p ← rdPtr
    pushP p (c.push i)
    return some (c.push i)
  else return none

/-- file_logger.c 129-158: the loop. -/
def loop (best : Bool) (c : Call) : Nat → Nat → Code → P Code
  | 0, _, st => return st
  | fuel + 1, i, st => do
    let r ← once c i
    match r with
    | none => return st
    | some st => if st = .success then return st else if !best then return st else loop best c fuel (i + 1) st

/-- file_logger.c 122-178, between `FILE_LOGGER_LOCK` and `FILE_LOGGER_UNLOCK`. -/
def body (best : Bool) (c : Call) : P Code := do
  let st ← loop best c 2 0 .bufNotEnough
  if st ≠ .success ∧ best = true ∧ c.lostOk = true then do
    change fun s => (printed c.msg (prec (BitVec.ofNat 32 c.msg.length))).map fun t => { s with
      lost := s.lost ++ t ++ [10, 10] }
    return st
  else return st

end Verif.FileLoggerMt
