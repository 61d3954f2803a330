import Verif.Common.Mem
/-!
# Model of `src/ring/ringbuffer.c` (the `RingBuffer_*` API)

`uint32_t` is `BitVec 32` (wrapping).  Outcome `none` = undefined behaviour: a `memcpy` leaving the ring or the
caller's source object, or a signed shift overflow.  NULL-handle guards (return 0) are not modelled: the handle
is always a live ring here.
-/
namespace Verif.RingBuffer

/-- `struct __ring_buffer_t`, src/ring/ringbuffer.c:50-57.  `need_free_myself` (only used by destroy) is omitted. -/
structure Ring where
  inp : BitVec 32
  out : BitVec 32
  size : BitVec 32
  buf : Mem

/-- `pri_is_power_of_2`, src/ring/ringbuffer.c:30-33. -/
def isPow2 (n : BitVec 32) : Bool := decide (1#32 < n) && (n &&& (n - 1#32)) == 0#32

/-- the loop `while (x >>= 1) counter++`, src/ring/ringbuffer.c:42-46: final value of `counter`. -/
def shiftCount (x : BitVec 32) : Nat :=
  if h : x >>> 1 = 0#32 then 0 else shiftCount (x >>> 1) + 1
termination_by x.toNat
decreasing_by
  rw [BitVec.toNat_ushiftRight, Nat.shiftRight_eq_div_pow]
  have : x.toNat ≠ 0 := by
    intro hx; apply h; apply BitVec.eq_of_toNat_eq
    rw [BitVec.toNat_ushiftRight, hx]; simp
  omega

/-- `pri_roundup_pow_of_two`, src/ring/ringbuffer.c:35-48.  `2 << counter` is a *signed int* shift: for
`counter ≥ 30` it overflows, which is undefined behaviour in C (`none`). -/
def roundup (x : BitVec 32) : Option (BitVec 32) :=
  if x = 0#32 ∨ isPow2 x = true then some x
  else if shiftCount x < 30 then some (BitVec.ofNat 32 (2 <<< shiftCount x))
  else none

/-- `sizeof(struct __ring_buffer_t)` on LP64: bool+padding, three uint32, pointer. -/
def structSize : BitVec 32 := 24#32

/-- `RingBuffer_create_with_mem`, src/ring/ringbuffer.c:62-88.  Outer `none` = undefined behaviour, inner
`none` = NULL returned.  `mem` is the caller's object; the ring's byte array is the object behind the header. -/
def createWithMem (mem : Option Mem) (bufSize : BitVec 32) : Option (Option Ring) :=
  match mem with
  | none => some none
  | some m =>
    if bufSize < structSize + 4#32 then some none
    else
      let rs := bufSize - structSize
      if isPow2 rs then
        some (some { inp := 0#32, out := 0#32, size := rs, buf := m.drop structSize.toNat })
      else
        match roundup rs with
        | none => none
        | some up => some (some { inp := 0#32, out := 0#32, size := up >>> 1, buf := m.drop structSize.toNat })

/-- `RingBuffer_create`, src/ring/ringbuffer.c:90-119.  `calloc` is a parameter (`none` = failure). -/
def create (calloc : BitVec 32 → Option Mem) (bufSize : BitVec 32) : Option (Option Ring) :=
  if bufSize < 2#32 then some none
  else
    match (if isPow2 bufSize then some bufSize else roundup bufSize) with
    | none => none
    | some bs =>
      let expect := structSize + bs
      match calloc expect with
      | none => some none
      | some m => createWithMem (some m) expect

/-- `_RING_AVAILABLE_READ`, `RingBuffer_available_read`, src/ring/ringbuffer.c:59,176-179. -/
def availRead (r : Ring) : BitVec 32 := r.inp - r.out

/-- `_RING_AVAILABLE_WRITE`, `RingBuffer_available_write`, src/ring/ringbuffer.c:60,181-184. -/
def availWrite (r : Ring) : BitVec 32 := r.size - (r.inp - r.out)

/-- `RingBuffer_is_empty`, src/ring/ringbuffer.c:141-144. -/
def isEmpty (r : Ring) : Bool := 0#32 == availRead r
/-- `RingBuffer_is_full`, src/ring/ringbuffer.c:146-149. -/
def isFull (r : Ring) : Bool := 0#32 == availWrite r

/-- `TAKE_MIN`, src/ring/ringbuffer.c:17. -/
def takeMin (a b : BitVec 32) : BitVec 32 := if b < a then b else a

/-- `if (n) memcpy(buf + off, source + soff, n)`, src/ring/ringbuffer.c:212-215, 217-220. -/
def copyIn (m : Mem) (off : Nat) (src : List Byte) (soff n : Nat) : Option Mem :=
  if n ≠ 0 then (Mem.load src soff n).bind (fun bs => m.store off bs) else some m

/-- `if (n) memcpy(target.., buf + off, n)`, src/ring/ringbuffer.c:253-256, 259-262. -/
def copyOut (m : Mem) (off n : Nat) : Option (List Byte) :=
  if n ≠ 0 then m.load off n else some []

/-- `RingBuffer_write`, src/ring/ringbuffer.c:186-223 (with RINGBUF_CONFIG_TRY_RW_IF_NOT_ENOUGH = 1).
`src = none` is a NULL source. -/
def write (r : Ring) (src : Option (List Byte)) (size : BitVec 32) : Option (Ring × BitVec 32) :=
  match src with
  | none => some (r, 0#32)
  | some src =>
    if size = 0#32 then some (r, 0#32)
    else
      let space := availWrite r
      if space = 0#32 then some (r, 0#32)
      else do
        let size := takeMin size space
        let start := r.inp &&& (r.size - 1#32)
        let firstMax := r.size - start
        let first := takeMin size firstMax
        let m ← copyIn r.buf start.toNat src 0 first.toNat
        let rest := size - first
        let m ← copyIn m 0 src first.toNat rest.toNat
        return ({ r with buf := m, inp := r.inp + size }, size)

/-- `RingBuffer_read_internal`, src/ring/ringbuffer.c:225-269.  `target = false` is a NULL target. -/
def readInternal (r : Ring) (target : Bool) (size : BitVec 32) (isPeek : Bool) :
    Option (Ring × BitVec 32 × List Byte) :=
  if size = 0#32 then some (r, 0#32, [])
  else
    let avail := availRead r
    if avail = 0#32 then some (r, 0#32, [])
    else
      let size := takeMin size avail
      let r' := if isPeek then r else { r with out := r.out + size }
      if target then do
        let start := r.out &&& (r.size - 1#32)
        let firstMax := r.size - start
        let first := takeMin size firstMax
        let a ← copyOut r.buf start.toNat first.toNat
        let rest := size - first
        let b ← copyOut r.buf 0 rest.toNat
        return (r', size, a ++ b)
      else some (r', size, [])

/-- `RingBuffer_read`, src/ring/ringbuffer.c:271-274. -/
def read (r : Ring) (target : Bool) (size : BitVec 32) : Option (Ring × BitVec 32 × List Byte) :=
  if target then readInternal r true size false else some (r, 0#32, [])
/-- `RingBuffer_peek`, src/ring/ringbuffer.c:276-279. -/
def peek (r : Ring) (target : Bool) (size : BitVec 32) := readInternal r target size true
/-- `RingBuffer_discard`, src/ring/ringbuffer.c:281-284. -/
def discard (r : Ring) (size : BitVec 32) := readInternal r false size false

/-- `RingBuffer_clear`, src/ring/ringbuffer.c:151-159. -/
def clear (r : Ring) : Ring := { r with inp := 0#32, out := 0#32 }

/-- One API call. -/
inductive Op where
  | write (src : Option (List Byte)) (size : BitVec 32)
  | read (target : Bool) (size : BitVec 32)
  | peek (target : Bool) (size : BitVec 32)
  | discard (size : BitVec 32)
  | clear
  | availRead
  | availWrite
  | isEmpty
  | isFull

/-- What the caller observes: return value and bytes stored to the target. -/
structure Out where
  ret : Nat
  data : List Byte
  deriving Repr, DecidableEq

def step (r : Ring) : Op → Option (Ring × Out)
  | .write s l => (write r s l).map fun (r, n) => (r, ⟨n.toNat, []⟩)
  | .read t l => (read r t l).map fun (r, n, d) => (r, ⟨n.toNat, d⟩)
  | .peek t l => (peek r t l).map fun (r, n, d) => (r, ⟨n.toNat, d⟩)
  | .discard l => (discard r l).map fun (r, n, d) => (r, ⟨n.toNat, d⟩)
  | .clear => some (clear r, ⟨0, []⟩)
  | .availRead => some (r, ⟨(availRead r).toNat, []⟩)
  | .availWrite => some (r, ⟨(availWrite r).toNat, []⟩)
  | .isEmpty => some (r, ⟨(isEmpty r).toNat, []⟩)
  | .isFull => some (r, ⟨(isFull r).toNat, []⟩)

/-- A history of calls. -/
def run (r : Ring) : List Op → Option (Ring × List Out)
  | [] => some (r, [])
  | o :: os => do
    let (r, x) ← step r o
    let (r, xs) ← run r os
    return (r, x :: xs)

end Verif.RingBuffer
