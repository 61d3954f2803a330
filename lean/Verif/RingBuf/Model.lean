import Verif.Common.Mem
/-!
# Model of `src/ring/ring_buf.c` (the `ring_buf_*` API)

`size_t` is `BitVec 64`.  The outcome `none` is undefined behaviour (a `memcpy` leaving the ring's memory or
the caller's source object).  NULL handles are outside the model (the code dereferences them unconditionally).
-/
namespace Verif.RingBuf

/-- `struct __ring_buf_t`, src/ring/ring_buf.c:17-24.  `pbuf` is the byte object; `need_free_myself` only
selects whether `ring_buf_destroy` frees and is not modelled. -/
structure Ring where
  pbuf : Mem
  size : BitVec 64
  offRead : BitVec 64
  offWrite : BitVec 64

/-- `sizeof(struct __ring_buf_t)` on LP64: bool + padding, pointer, three `size_t`. -/
def structSize : BitVec 64 := 40#64

/-- `ring_buf_create_with_mem`, src/ring/ring_buf.c:30-48.  `mem` is the caller's object (`none` = NULL) and
`bufSize` the size passed.  Result `none` = NULL returned.  The ring's bytes are the object minus the header. -/
def createWithMem (mem : Option Mem) (bufSize : BitVec 64) : Option Ring :=
  match mem with
  | none => none
  | some m =>
    if bufSize < structSize + 3#64 then none
    else some { pbuf := (m.drop structSize.toNat), size := bufSize - structSize,
                offRead := 0#64, offWrite := 0#64 }

/-- `ring_buf_create`, src/ring/ring_buf.c:50-73.  `malloc` is a parameter: the object it returns for a size
(`none` = failure). -/
def create (malloc : BitVec 64 → Option Mem) (size : BitVec 64) : Option Ring :=
  if size < 3#64 then none
  else
    let expect := size + structSize
    match malloc expect with
    | none => none
    | some m => createWithMem (some m) expect

/-- `_RING_AVAILABLE_READ` / `ring_buf_available_read`, src/ring/ring_buf.c:26,75-78. -/
def availRead (r : Ring) : BitVec 64 := (r.size + r.offWrite - r.offRead) % r.size

/-- `_RING_AVAILABLE_WRITE` / `ring_buf_available_write`, src/ring/ring_buf.c:28,80-83. -/
def availWrite (r : Ring) : BitVec 64 := (r.size + r.offRead - r.offWrite - 1#64) % r.size

/-- `RING_BUF_TAKE_MIN`, src/ring/ring_buf.c:7. -/
def takeMin (a b : BitVec 64) : BitVec 64 := if b < a then b else a

/-- `if (target) memcpy(target.., pbuf + off, n)`, src/ring/ring_buf.c:95-98, 104-107: the bytes stored. -/
def copyOut (target : Bool) (m : Mem) (off n : Nat) : Option (List Byte) :=
  if target then m.load off n else some []

/-- `if (first_part_len) memcpy(pbuf + off, source, n)`, src/ring/ring_buf.c:153-156. -/
def copyIn (m : Mem) (off : Nat) (src : List Byte) (n : Nat) : Option Mem :=
  if n ≠ 0 then (Mem.load src 0 n).bind (fun bs => m.store off bs) else some m

/-- `internal_ring_buf_read`, src/ring/ring_buf.c:85-126.  `target = false` models a NULL target.
Returns the new ring, the return value and the bytes stored to `target`. -/
def readInternal (r : Ring) (isPeek : Bool) (target : Bool) (len : BitVec 64) :
    Option (Ring × BitVec 64 × List Byte) := do
  if len = 0#64 ∨ availRead r < len then
    return (r, 0#64, [])
  let firstMax := r.size - r.offRead
  let first := takeMin len firstMax
  let a ← copyOut target r.pbuf r.offRead.toNat first.toNat
  let second := len - first
  if second ≠ 0#64 then
    let b ← copyOut target r.pbuf 0 second.toNat
    let r' := if isPeek then r else { r with offRead := second }
    return (r', len, a ++ b)
  else
    let new := r.offRead + first
    let new := if new = r.size then 0#64 else new
    let r' := if isPeek then r else { r with offRead := new }
    return (r', len, a)

/-- `ring_buf_read`, src/ring/ring_buf.c:128-131. -/
def read (r : Ring) (target : Bool) (len : BitVec 64) := readInternal r false target len
/-- `ring_buf_peek`, src/ring/ring_buf.c:133-136. -/
def peek (r : Ring) (target : Bool) (len : BitVec 64) := readInternal r true target len
/-- `ring_buf_discard`, src/ring/ring_buf.c:138-141. -/
def discard (r : Ring) (len : BitVec 64) := readInternal r false false len

/-- `ring_buf_write`, src/ring/ring_buf.c:143-175.  `src` is the object `source` points to. -/
def write (r : Ring) (src : List Byte) (len : BitVec 64) : Option (Ring × BitVec 64) := do
  if 0#64 = len ∨ availWrite r < len then
    return (r, 0#64)
  let firstMax := r.size - r.offWrite
  let first := takeMin len firstMax
  let m ← copyIn r.pbuf r.offWrite.toNat src first.toNat
  let second := len - first
  if 0#64 = second then
    let new := r.offWrite + first
    let new := if new = r.size then 0#64 else new
    return ({ r with pbuf := m, offWrite := new }, len)
  else
    let bs ← Mem.load src first.toNat second.toNat
    let m ← m.store 0 bs
    return ({ r with pbuf := m, offWrite := second }, len)

/-- `ring_buf_clear`, src/ring/ring_buf.c:177-180. -/
def clear (r : Ring) : Ring := { r with offRead := 0#64, offWrite := 0#64 }

/-- One API call.  A `write` carries the source object and the length argument. -/
inductive Op where
  | write (src : List Byte) (len : BitVec 64)
  | read (target : Bool) (len : BitVec 64)
  | peek (target : Bool) (len : BitVec 64)
  | discard (len : BitVec 64)
  | clear
  | availRead
  | availWrite

/-- What the caller observes: the return value and the bytes stored to its target. -/
structure Out where
  ret : Nat
  data : List Byte
  deriving Repr, DecidableEq

/-- One call; `none` = undefined behaviour. -/
def step (r : Ring) : Op → Option (Ring × Out)
  | .write s l => (write r s l).map fun (r, n) => (r, ⟨n.toNat, []⟩)
  | .read t l => (read r t l).map fun (r, n, d) => (r, ⟨n.toNat, d⟩)
  | .peek t l => (peek r t l).map fun (r, n, d) => (r, ⟨n.toNat, d⟩)
  | .discard l => (discard r l).map fun (r, n, d) => (r, ⟨n.toNat, d⟩)
  | .clear => some (clear r, ⟨0, []⟩)
  | .availRead => some (r, ⟨(availRead r).toNat, []⟩)
  | .availWrite => some (r, ⟨(availWrite r).toNat, []⟩)

/-- A history of calls. -/
def run (r : Ring) : List Op → Option (Ring × List Out)
  | [] => some (r, [])
  | o :: os => do
    let (r, x) ← step r o
    let (r, xs) ← run r os
    return (r, x :: xs)

end Verif.RingBuf
