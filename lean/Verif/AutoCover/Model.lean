import Verif.RingBuffer.Model
/-!
# Model of `src/ring/autocover_buffer.c`, on top of the `ringbuffer.c` model

The struct is (ring handle, ring_buffer_size = the ring's real capacity, lock); the lock is user supplied and only
serialises calls, so a call is one atomic step here.  `ASSERT` is compiled out (release build).  Outcome `none` =
undefined behaviour or `ASSERT_ABORT` firing.
-/
namespace Verif.AutoCover
open RingBuffer (Ring)

/-- `auto_cover_buf_create`, src/ring/autocover_buffer.c:28-51. -/
def create (calloc : BitVec 32 → Option Mem) (cap : BitVec 32) : Option (Option Ring) :=
  RingBuffer.create calloc cap

/-- `AUTO_COVER_BUF_ERR_DATA_COVERED` -/
def errCovered : Int := -3
/-- `AUTO_COVER_BUF_ERR_DATA_NOT_ENOUGH` -/
def errNotEnough : Int := -4

/-- Computation of `real_can_read_len`, src/ring/autocover_buffer.c:63-100.  `uint32_t → int` is `toInt`. -/
def canRead (r : Ring) (pos : BitVec 32) : Int :=
  let mask := r.size - 1#32
  let cover := pos &&& mask
  let avail := RingBuffer.availRead r
  let roff := r.out &&& mask
  let woff := r.inp &&& mask
  if woff - roff = avail then
    if roff ≤ cover ∧ cover < woff then (avail - (cover - roff)).toInt else errCovered
  else if woff < cover ∧ cover < roff then errCovered
  else if roff ≤ cover then (avail - (cover - roff)).toInt
  else (woff - cover).toInt

/-- `if (n) RingBuffer_discard(ring, n)`, src/ring/autocover_buffer.c:107-110. -/
def skipBytes (r : Ring) (n : BitVec 32) : Option Ring :=
  if n ≠ 0#32 then (RingBuffer.discard r n).map (·.1) else some r

/-- Make room for `len` bytes, src/ring/autocover_buffer.c:158-162. -/
def makeRoom (r : Ring) (len : BitVec 32) : Option Ring :=
  if RingBuffer.availWrite r < len then (RingBuffer.discard r (len - RingBuffer.availWrite r)).map (·.1) else some r

/-- `auto_cover_buf_internal_read`, src/ring/autocover_buffer.c:57-117: new ring, return value, bytes stored. -/
def internalRead (r : Ring) (pos : BitVec 32) (target : Bool) (req : BitVec 32) :
    Option (Ring × Int × List Byte) :=
  let can := canRead r pos
  let avail := RingBuffer.availRead r
  if ¬ can ≤ avail.toInt then none
  else if target = true ∧ req.toInt ≤ can then do
    let skip := avail - BitVec.ofInt 32 can
    let r ← skipBytes r skip
    let (r, n, d) ← RingBuffer.read r true req
    if n ≠ req then none
    return (r, can, d)
  else some (r, can, [])

/-- `auto_cover_buf_available_read`, src/ring/autocover_buffer.c:119-123. -/
def availableRead (r : Ring) (pos : BitVec 32) : Option (Ring × Int) :=
  (internalRead r pos false 0#32).map fun (r, n, _) => (r, n)

/-- `auto_cover_buf_read`, src/ring/autocover_buffer.c:125-149. -/
def read (r : Ring) (pos : BitVec 32) (req : BitVec 32) : Option (Ring × Int × List Byte) := do
  let (r, avail, d) ← internalRead r pos true req
  if avail < 0 then return (r, avail, d)
  if avail < req.toInt then return (r, errNotEnough, d)
  return (r, req.toInt, d)

/-- `auto_cover_buf_write`, src/ring/autocover_buffer.c:151-168. -/
def write (r : Ring) (src : List Byte) (len : BitVec 32) : Option (Ring × Int) := do
  let r ← makeRoom r len
  let (r, n) ← RingBuffer.write r (some src) len
  if n ≠ len then none
  return (r, n.toInt)

/-- One call.  A position is the absolute index in the stream of all bytes ever written; the C argument is that
index truncated to `uint32_t`. -/
inductive Op where
  | write (src : List Byte) (len : BitVec 32)
  | read (pos : Nat) (req : BitVec 32)
  | avail (pos : Nat)

structure Out where
  ret : Int
  data : List Byte
  deriving DecidableEq, Repr

def step (r : Ring) : Op → Option (Ring × Out)
  | .write s l => (write r s l).map fun (r, n) => (r, ⟨n, []⟩)
  | .read p q => (read r (BitVec.ofNat 32 p) q).map fun (r, n, d) => (r, ⟨n, d⟩)
  | .avail p => (availableRead r (BitVec.ofNat 32 p)).map fun (r, n) => (r, ⟨n, []⟩)

def run (r : Ring) : List Op → Option (Ring × List Out)
  | [] => some (r, [])
  | o :: os => do
    let (r, x) ← step r o
    let (r, xs) ← run r os
    return (r, x :: xs)

end Verif.AutoCover
