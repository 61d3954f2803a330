import Verif.RingBuffer.Model
/-!
# Objects on the heap: constructors under refusal, destructors

`RingBuffer_create*`/`_destroy` (src/ring/ringbuffer.c:62-139), `ring_buf_create*`/`_destroy` (src/ring/ring_buf.c:30-72,
182-200), `msg_queue_create`/`_destroy` (src/ring/msg_queue.c:16-36, 120-129), `fixed_msg_queue_create`/`_destroy`
(src/ring/fixed_msg_queue.c:12-34, 87-97), `auto_cover_buf_create`/`_destroy` (src/ring/autocover_buffer.c:28-51, 170-180),
`stringbuilder_create`/`_destroy`/growth (src/mem/stringbuilder.c:18-85), `array_new*`/`array_free`/`grow`
(src/data/array.c:41-74, 114-130).

The heap is a set of blocks with sizes; each field access is checked against the block it lies in.  Pointers, flags and
numbers stored in a structure are kept apart (`pv`, `bv`, `nv`), addressed by block and offset; the layout is LP64.
Undefined behaviour is `none`.  The system answers the k-th request for memory by `grant k`.
-/
namespace Verif.ObjLife

inductive Ptr where
  | null
  | at (b off : Nat)
  deriving DecidableEq

def Ptr.add : Ptr → Nat → Ptr
  | .null, _ => .null
  | .at b o, n => .at b (o + n)

structure Heap where
  /-- the blocks not yet freed, with their sizes -/
  live : Nat → Option Nat
  pv : Nat → Nat → Ptr
  bv : Nat → Nat → Bool
  nv : Nat → Nat → Nat
  next : Nat
  grant : Nat → Bool
  calls : Nat

abbrev M (α : Type) := Heap → Option (α × Heap)

def upd {α : Type} (f : Nat → α) (i : Nat) (x : α) : Nat → α := fun j => if j = i then x else f j

/-- `malloc`; the contents of a new block are whatever they are -/
def malloc (n : Nat) : M Ptr := fun h =>
  if h.grant h.calls then
    some (.at h.next 0, { h with live := upd h.live h.next (some n), next := h.next + 1, calls := h.calls + 1 })
  else some (.null, { h with calls := h.calls + 1 })

/-- `calloc` -/
def calloc (n : Nat) : M Ptr := fun h =>
  if h.grant h.calls then
    some (.at h.next 0, { h with
      live := upd h.live h.next (some n), pv := upd h.pv h.next (fun _ => .null), bv := upd h.bv h.next (fun _ => false),
      nv := upd h.nv h.next (fun _ => 0), next := h.next + 1, calls := h.calls + 1 })
  else some (.null, { h with calls := h.calls + 1 })

/-- `free` -/
def free : Ptr → M Unit
  | .null => fun h => some ((), h)
  | .at b o => fun h => if o = 0 ∧ (h.live b).isSome then some ((), { h with live := upd h.live b none }) else none

/-- an access of `w` bytes at offset `off` of the structure at `p` -/
def access (p : Ptr) (off w : Nat) (h : Heap) : Option (Nat × Nat) :=
  match p with
  | .null => none
  | .at b o =>
    match h.live b with
    | none => none
    | some n => if o + off + w ≤ n then some (b, o + off) else none

def setP (p : Ptr) (off : Nat) (x : Ptr) : M Unit := fun h =>
  (access p off 8 h).map fun a => ((), { h with pv := upd h.pv a.1 (upd (h.pv a.1) a.2 x) })

def setB (p : Ptr) (off : Nat) (x : Bool) : M Unit := fun h =>
  (access p off 1 h).map fun a => ((), { h with bv := upd h.bv a.1 (upd (h.bv a.1) a.2 x) })

/-- `w`: width in bytes -/
def setN (p : Ptr) (off w : Nat) (x : Nat) : M Unit := fun h =>
  (access p off w h).map fun a => ((), { h with nv := upd h.nv a.1 (upd (h.nv a.1) a.2 x) })

def getP (p : Ptr) (off : Nat) : M Ptr := fun h => (access p off 8 h).map fun a => (h.pv a.1 a.2, h)
def getB (p : Ptr) (off : Nat) : M Bool := fun h => (access p off 1 h).map fun a => (h.bv a.1 a.2, h)
def getN (p : Ptr) (off w : Nat) : M Nat := fun h => (access p off w h).map fun a => (h.nv a.1 a.2, h)

def pure' {α : Type} (x : α) : M α := fun h => some (x, h)
def andThen {α β : Type} (m : M α) (f : α → M β) : M β := fun h => (m h).bind fun r => f r.1 r.2
instance : Monad M where
  pure := pure'
  bind := andThen

/-- undefined behaviour -/
def undef {α : Type} : M α := fun _ => none

/-- ringbuffer.c:76-80: the size of the ring in `n` bytes, `none`: overflow of the shift -/
def ringSize (n : Nat) : Option Nat :=
  if RingBuffer.isPow2 (BitVec.ofNat 32 n) then some n
  else (RingBuffer.roundup (BitVec.ofNat 32 n)).map fun (u : BitVec 32) => (u >>> 1).toNat

/-- ringbuffer.c:97-102 -/
def ringUp (n : Nat) : Option Nat :=
  if RingBuffer.isPow2 (BitVec.ofNat 32 n) then some n
  else (RingBuffer.roundup (BitVec.ofNat 32 n)).map BitVec.toNat

/-- `RingBuffer_create_with_mem`, ringbuffer.c:62-88: fields `need_free_myself` 0, `in` 4, `out` 8, `size` 12, `buf` 16;
24 bytes -/
def ringWithMem (buf : Ptr) (n : Nat) : M Ptr :=
  if buf = .null then pure .null
  else if n < 24 + 4 then pure .null
  else
    match ringSize (n - 24) with
    | none => undef
    | some sz => do
      setB buf 0 false
      setP buf 16 (buf.add 24)
      setN buf 12 4 sz
      setN buf 4 4 0
      setN buf 8 4 0
      pure buf

/-- `RingBuffer_create`, ringbuffer.c:90-119 -/
def ringCreate (n : Nat) : M Ptr :=
  if n < 2 then pure .null
  else
    match ringUp n with
    | none => undef
    | some up => do
      let raw ← calloc (24 + up)
      if raw = .null then pure .null
      else do
        let r ← ringWithMem raw (24 + up)
        if r = .null then do
          free raw
          pure .null
        else do
          setB r 0 true
          pure r

/-- `RingBuffer_destroy`, ringbuffer.c:121-139.  The argument is the address of a handle: `none`, NULL; the answer is the
handle afterwards. -/
def ringDestroy : Option Ptr → M (Option Ptr)
  | none => pure none
  | some .null => pure (some .null)
  | some r => do
    setN r 4 4 0
    setN r 8 4 0
    setN r 12 4 0
    let own ← getB r 0
    if own then do
      setP r 16 .null
      setB r 0 false
      free r
      pure (some .null)
    else pure (some .null)

/-- `ring_buf_create_with_mem`, ring_buf.c:30-48: `need_free_myself` 0, `pbuf` 8, `size` 16, `offset_read` 24,
`offset_write` 32; 40 bytes -/
def rbufWithMem (buf : Ptr) (n : Nat) : M Ptr :=
  if buf = .null then pure .null
  else if n < 40 + 3 then pure .null
  else do
    setB buf 0 false
    setN buf 16 8 (n - 40)
    setP buf 8 (buf.add 40)
    setN buf 32 8 0
    setN buf 24 8 0
    pure buf

/-- `ring_buf_create`, ring_buf.c:50-72; `size_t` arithmetic at 57 -/
def rbufCreate (n : Nat) : M Ptr :=
  if n < 3 then pure .null
  else do
    let raw ← malloc ((n + 40) % 2 ^ 64)
    if raw = .null then pure .null
    else do
      let r ← rbufWithMem raw ((n + 40) % 2 ^ 64)
      if r = .null then do
        free raw
        pure .null
      else do
        setB r 0 true
        pure r

/-- `ring_buf_destroy`, ring_buf.c:182-200 -/
def rbufDestroy : Option Ptr → M (Option Ptr)
  | none => pure none
  | some .null => pure (some .null)
  | some r => do
    let own ← getB r 0
    if own then do
      setB r 0 false
      setP r 8 .null
      free r
      pure (some .null)
    else pure (some .null)

/-- `msg_queue_create`, msg_queue.c:16-36: `ring_buf_p` 0; 8 bytes -/
def mqCreate (n : Nat) : M Ptr :=
  if n < 4 + 4 then pure .null
  else do
    let raw ← malloc (8 + n)
    if raw = .null then pure .null
    else do
      let r ← ringWithMem (raw.add 8) n
      setP raw 0 r
      let r' ← getP raw 0
      if r' = .null then do
        free raw
        pure .null
      else pure raw

/-- `msg_queue_destroy`, msg_queue.c:120-129: only the address of the handle is tested, not the handle -/
def mqDestroy : Option Ptr → M (Option Ptr)
  | none => pure none
  | some q => do
    let r ← getP q 0
    if r = .null then pure (some q)
    else do
      let r' ← ringDestroy (some r)
      setP q 0 (r'.getD .null)
      free q
      pure (some .null)

/-- `fixed_msg_queue_create`, fixed_msg_queue.c:12-34: `ring_buf_p` 0, `one_msg_byte_size` 8; 16 bytes.  The product is
computed in 32 bits (19). -/
def fqCreate (one cap : Nat) : M Ptr :=
  if one < 1 ∨ cap < 1 then pure .null
  else do
    let raw ← malloc (16 + one * cap % 2 ^ 32)
    if raw = .null then pure .null
    else do
      setN raw 8 4 one
      let r ← ringWithMem (raw.add 16) (one * cap % 2 ^ 32)
      setP raw 0 r
      let r' ← getP raw 0
      if r' = .null then do
        free raw
        pure .null
      else pure raw

/-- `fixed_msg_queue_destroy`, fixed_msg_queue.c:87-97 -/
def fqDestroy : Option Ptr → M (Option Ptr)
  | none => pure none
  | some .null => pure (some .null)
  | some q => do
    let r ← getP q 0
    let r' ← ringDestroy (some r)
    setP q 0 (r'.getD .null)
    free q
    pure (some .null)

/-- `auto_cover_buf_create`, autocover_buffer.c:28-51: `ring` 0, `ring_buffer_size` 8, `buf_lock` 16 (24 bytes); 40 bytes.
`lock`: a lock was given, its three words are copied (their values are not modelled). -/
def acCreate (n : Nat) (lock : Bool) : M Ptr := do
  let c ← calloc 40
  if c = .null then pure .null
  else do
    if lock then setN c 16 24 0 else pure ()
    let r ← ringCreate n
    setP c 0 r
    let r' ← getP c 0
    if r' = .null then do
      free c
      pure .null
    else do
      let sz ← getN r' 12 4
      setN c 8 4 sz
      pure c

/-- `auto_cover_buf_destroy`, autocover_buffer.c:170-180 -/
def acDestroy : Option Ptr → M (Option Ptr)
  | none => pure none
  | some .null => pure (some .null)
  | some c => do
    let r ← getP c 0
    let r' ← ringDestroy (some r)
    setP c 0 (r'.getD .null)
    free c
    pure (some .null)

/-- `stringbuilder_create`, stringbuilder.c:18-40: `buffer` 0, `allocated` 8, `length` 16; 24 bytes -/
def sbCreate (n : Nat) : M Ptr := do
  let s ← malloc 24
  if s = .null then pure .null
  else do
    let b ← malloc (if n < 2 then 128 else n)
    if b = .null then do
      free s
      pure .null
    else do
      setN s 8 8 (if n < 2 then 128 else n)
      setP s 0 b
      setN b 0 1 0
      setN s 16 8 0
      pure s

/-- `stringbuilder_destroy`, stringbuilder.c:42-53 -/
def sbDestroy : Option Ptr → M (Option Ptr)
  | none => pure none
  | some .null => pure (some .null)
  | some s => do
    let b ← getP s 0
    free b
    setP s 0 .null
    free s
    pure (some .null)

/-- `realloc` of a block: the new one gets a new number -/
def realloc (p : Ptr) (n : Nat) : M Ptr := do
  let q ← malloc n
  if q = .null then pure .null
  else do
    free p
    pure q

/-- `sb_ensure_space`, stringbuilder.c:78-85: the buffer is grown to `n` bytes; `false`: refused -/
def sbGrow (s : Ptr) (n : Nat) : M Bool := do
  let b ← getP s 0
  let q ← realloc b n
  if q = .null then pure false
  else do
    setN s 8 8 n
    setP s 0 q
    pure true

/-- `array_new_with_init_capacity`, array.c:41-61 (`array_new`: 16): `element_size` 0, `length` 8, `capacity` 16, `data` 24,
`internal_storage` 32 -/
def arrNew (es cap : Nat) : M Ptr := do
  let cap := if cap < 4 then 4 else cap
  let a ← calloc ((32 + es * cap % 2 ^ 64) % 2 ^ 64)
  if a = .null then pure .null
  else do
    setN a 0 8 es
    setN a 16 8 cap
    setP a 24 (a.add 32)
    pure a

/-- `array_free`, array.c:63-74 -/
def arrFree (a : Ptr) : M Unit :=
  if a = .null then pure ()
  else do
    let d ← getP a 24
    if d ≠ a.add 32 then do
      free d
      free a
    else free a

/-- `grow`, array.c:114-130; the copy of the elements at 124 is in `Verif.Array` -/
def arrGrow (a : Ptr) : M Bool := do
  let cap ← getN a 16 8
  let es ← getN a 0 8
  let d ← getP a 24
  let q ← realloc (if d = a.add 32 then .null else d) ((cap + cap / 2) % 2 ^ 64 * es % 2 ^ 64)
  if q = .null then pure false
  else do
    setP a 24 q
    setN a 16 8 ((cap + cap / 2) % 2 ^ 64)
    pure true

end Verif.ObjLife
