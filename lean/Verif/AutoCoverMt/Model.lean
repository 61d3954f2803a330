import Verif.Common.Locked
import Verif.AutoCover.Model
/-!
# Model of `auto_cover_buf` with a lock, under threads

src/ring/autocover_buffer.c with `buf_lock` set, on top of src/ring/ringbuffer.c.  Every call takes the lock, works on the
ring in pieces (each read of `in`, `out`, `size`, each `memcpy`, each assignment is one piece; other threads run
in between) and releases the lock.  The lock is a mutex; what `acquire` returns is ignored by the code
(autocover_buffer.c 19-27), so a lock whose `acquire` can fail is outside the model.  The caller's source and target
are private to the call.  `ASSERT` is compiled out, `ASSERT_ABORT` is a `check`.
-/
namespace Verif.AutoCoverMt
open Verif.Locked
open Verif.RingBuffer (Ring takeMin copyIn copyOut)
open Verif.AutoCover (Op Out errCovered errNotEnough)

abbrev P := Prog Ring

/-- `ring->in`, `ring->out`, `ring->size`: one access each. -/
def rdIn : P (BitVec 32) := read (·.inp)
def rdOut : P (BitVec 32) := read (·.out)
def rdSize : P (BitVec 32) := read (·.size)

/-- ringbuffer.c 59, 176-179. -/
def availRead : P (BitVec 32) := do
  let i ← rdIn
  let o ← rdOut
  return i - o

/-- ringbuffer.c 60, 181-184. -/
def availWrite : P (BitVec 32) := do
  let n ← rdSize
  let a ← availRead
  return n - a

/-- `ring->out += n`. -/
def advance (n : BitVec 32) : P Unit := do
  let o ← rdOut
  change fun r => some { r with out := o + n }

/-- ringbuffer.c 225-269, 281-284 `RingBuffer_discard`. -/
def discard (n : BitVec 32) : P Unit :=
  if n = 0#32 then return ()
  else do
    let avail ← availRead
    if avail = 0#32 then return () else advance (takeMin n avail)

/-- ringbuffer.c 225-269, 271-274 `RingBuffer_read` with a target: bytes read, bytes stored. -/
def ringRead (n : BitVec 32) : P (BitVec 32 × List Byte) :=
  if n = 0#32 then return (0#32, [])
  else do
    let avail ← availRead
    if avail = 0#32 then return (0#32, [])
    else
      let n := takeMin n avail
      let o ← rdOut
      let size ← rdSize
      let start := o &&& (size - 1#32)
      let first := takeMin n (size - start)
      let a ← tryRead fun r => copyOut r.buf start.toNat first.toNat
      let b ← tryRead fun r => copyOut r.buf 0 (n - first).toNat
      advance n
      return (n, a ++ b)

/-- ringbuffer.c 186-223 `RingBuffer_write`. -/
def ringWrite (src : List Byte) (n : BitVec 32) : P (BitVec 32) :=
  if n = 0#32 then return 0#32
  else do
    let space ← availWrite
    if space = 0#32 then return 0#32
    else
      let n := takeMin n space
      let i ← rdIn
      let size ← rdSize
      let start := i &&& (size - 1#32)
      let first := takeMin n (size - start)
      change fun r => (copyIn r.buf start.toNat src 0 first.toNat).map fun m => { r with buf := m }
      change fun r => (copyIn r.buf 0 src first.toNat (n - first).toNat).map fun m => { r with buf := m }
      change fun r => some { r with inp := r.inp + n }
      return n

/-- autocover_buffer.c 63-100: `real_can_read_len` from the values read. -/
def canReadOf (size avail i o pos : BitVec 32) : Int :=
  let mask := size - 1#32
  let cover := pos &&& mask
  let roff := o &&& mask
  let woff := i &&& mask
  if woff - roff = avail then
    if roff ≤ cover ∧ cover < woff then (avail - (cover - roff)).toInt else errCovered
  else if woff < cover ∧ cover < roff then errCovered
  else if roff ≤ cover then (avail - (cover - roff)).toInt
  else (woff - cover).toInt

/-- autocover_buffer.c 57-117 `auto_cover_buf_internal_read`, between the lock macros. -/
def internalRead (pos : BitVec 32) (target : Bool) (req : BitVec 32) : P (Int × List Byte) := do
  let size ← rdSize
  let avail ← availRead
  let o ← rdOut
  let i ← rdIn
  let can := canReadOf size avail i o pos
  check (decide (can ≤ avail.toInt))
  if target = true ∧ req.toInt ≤ can then do
    discard (avail - BitVec.ofInt 32 can)
    let t ← ringRead req
    check (decide (t.1 = req))
    return (can, t.2)
  else return (can, [])

/-- autocover_buffer.c 151-168 `auto_cover_buf_write`, between the lock macros. -/
def write (src : List Byte) (len : BitVec 32) : P Int := do
  let space ← availWrite
  if space < len then discard (len - space) else pure ()
  let n ← ringWrite src len
  check (decide (n = len))
  return n.toInt

/-- What each call does between `acquire` and `release`, and what it makes of it: autocover_buffer.c 119-168. -/
def body : Op → P Out
  | .write s l => do
    let n ← write s l
    return ⟨n, []⟩
  | .read p q => do
    let t ← internalRead (BitVec.ofNat 32 p) true q
    -- autocover_buffer.c 134-148, after the release
    if t.1 < 0 then return ⟨t.1, t.2⟩
    else if t.1 < q.toInt then return ⟨errNotEnough, t.2⟩
    else return ⟨q.toInt, t.2⟩
  | .avail p => do
    let t ← internalRead (BitVec.ofNat 32 p) false 0#32
    return ⟨t.1, []⟩

end Verif.AutoCoverMt
