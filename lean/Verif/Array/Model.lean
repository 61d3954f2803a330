import Verif.Common.Mem
/-!
# Model of src/data/array.c

The element storage is a byte block (`Mem`); leaving it is `none` (undefined behaviour).
`size_t` products wrap modulo 2^64.  `calloc`/`realloc` answers come from the environment
(`ok`), but an object larger than PTRDIFF_MAX = 2^63-1 is never granted.  `sizeof(array_t)` = 32
(64-bit build).  `array_free` and the NULL-pointer `ASSERT`s are not modelled.
-/
namespace Verif.CArray

/-- array.c 29-36: `struct array_t`. `block` is what `data` points to; `internal` says it is the
in-struct storage (`data == internal_storage`). -/
structure Arr where
  elementSize : Nat
  length : Nat
  capacity : Nat
  internal : Bool
  block : Mem
deriving Repr, DecidableEq

/-- The allocator grants `n` bytes. -/
def grants (ok : Bool) (n : Nat) : Bool := ok && decide (n < 2 ^ 63)

/-- array.c 46-61: `array_new_with_init_capacity`.  The flexible array member is what remains of the
allocation behind the 32-byte header. -/
def newWithCapacity (es cap : Nat) (ok : Bool) : Option Arr :=
  let cap := if cap < 4 then 4 else cap
  let total := (32 + es * cap) % 2 ^ 64
  if grants ok total then some ⟨es, 0, cap, true, List.replicate (total - 32) 0⟩ else none

/-- array.c 41-44: `array_new`. -/
def new (es : Nat) (ok : Bool) : Option Arr := newWithCapacity es 16 ok

/-- array.c 114-130: `grow`.  `junk`: contents of the fresh bytes of a reallocated block.
The outer `none` is undefined behaviour; the Boolean is the result. -/
def grow (a : Arr) (ok : Bool) (junk : Nat → Byte) : Option (Arr × Bool) :=
  let newCapacity := (a.capacity + a.capacity / 2) % 2 ^ 64
  let bytes := newCapacity * a.elementSize % 2 ^ 64
  if grants ok bytes = false then some (a, false)
  else if a.internal then
    -- malloc + memcpy(new_data, internal_storage, length * element_size)
    let fresh : Mem := (List.range bytes).map junk
    match a.block.load 0 (a.length * a.elementSize % 2 ^ 64) with
    | none => none
    | some bs =>
      match fresh.store 0 bs with
      | none => none
      | some blk => some ({ a with block := blk, capacity := newCapacity, internal := false }, true)
  else
    -- realloc: keeps the first min(old, new) bytes
    let blk := a.block.take bytes ++ (List.range (bytes - a.block.length)).map junk
    some ({ a with block := blk, capacity := newCapacity }, true)

/-- array.c 103: `length == capacity && !grow(array)`; the Boolean says the append may go on. -/
def ensureRoom (a : Arr) (ok : Bool) (junk : Nat → Byte) : Option (Arr × Bool) :=
  if a.length = a.capacity then grow a ok junk else some (a, true)

/-- array.c 81-86: byte offset of `array_at(array, index)` in the block. -/
def atOff (a : Arr) (index : Nat) : Nat := index * a.elementSize % 2 ^ 64

/-- Read the element `array_at(index)` points to. -/
def readAt (a : Arr) (index : Nat) : Option (List Byte) := a.block.load (atOff a index) a.elementSize

/-- array.c 99-112: `array_append_ptr`; `src` is the caller's object. -/
def appendPtr (a : Arr) (src : Mem) (ok : Bool) (junk : Nat → Byte) : Option (Arr × Bool) :=
  match ensureRoom a ok junk with
  | none => none
  | some (a1, false) => some (a1, false)
  | some (a1, true) =>
    let a2 := { a1 with length := (a1.length + 1) % 2 ^ 64 }
    match src.load 0 a2.elementSize with
    | none => none
    | some bs =>
      match a2.block.store (atOff a2 (a2.length - 1)) bs with
      | none => none
      | some blk => some ({ a2 with block := blk }, true)

/-- The 4 bytes of a `uint32_t` variable, least significant first (little-endian target). -/
def le32 (v : Nat) : Mem :=
  [UInt8.ofNat v, UInt8.ofNat (v / 2 ^ 8), UInt8.ofNat (v / 2 ^ 16), UInt8.ofNat (v / 2 ^ 24)]

/-- array.c 94-97: `array_append_value`: passes the address of its 4-byte parameter. -/
def appendValue (a : Arr) (value : Nat) (ok : Bool) (junk : Nat → Byte) : Option (Arr × Bool) :=
  appendPtr a (le32 value) ok junk

/-- A sequence of appends, each with its source object and the environment's answers; result: the
array and the Boolean of each call. -/
def appends : Arr → List (Mem × Bool × (Nat → Byte)) → Option (Arr × List Bool)
  | a, [] => some (a, [])
  | a, (src, ok, junk) :: rest =>
    match appendPtr a src ok junk with
    | none => none
    | some (a1, b) =>
      match appends a1 rest with
      | none => none
      | some (a2, bs) => some (a2, b :: bs)

end Verif.CArray
