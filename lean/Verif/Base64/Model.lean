import Verif.Common.Mem
/-!
# Model of src/data/base64.c

`char` is signed (x86/ARM-Linux x86 ABI); table lookups on it go through sign extension to 32-bit
`int`, modelled with `BitVec 32`.  Every `*p++ = c` is a bounds-checked write into the output object,
every `src[i]` a bounds-checked read; leaving an object is `none`.  Lengths are mathematical naturals;
the `(int)` conversions of the results are modelled by `toInt32`.  Loops carry fuel (running out is
`none`); the theorems show it never runs out.
-/
namespace Verif.Base64

/-- base64.c 15-16: `basis_64`. -/
def basis64 : List Byte :=
  "ABCDEFGHIJKLMNOPQRSTUVWXYZabcdefghijklmnopqrstuvwxyz0123456789+/".toList.map
    fun c => UInt8.ofNat c.toNat

/-- base64.c 64-83: `pr2six`. -/
def pr2six : List Nat :=
  [64, 64, 64, 64, 64, 64, 64, 64, 64, 64, 64, 64, 64, 64, 64, 64,
   64, 64, 64, 64, 64, 64, 64, 64, 64, 64, 64, 64, 64, 64, 64, 64,
   64, 64, 64, 64, 64, 64, 64, 64, 64, 64, 64, 62, 64, 64, 64, 63,
   52, 53, 54, 55, 56, 57, 58, 59, 60, 61, 64, 64, 64, 64, 64, 64,
   64,  0,  1,  2,  3,  4,  5,  6,  7,  8,  9, 10, 11, 12, 13, 14,
   15, 16, 17, 18, 19, 20, 21, 22, 23, 24, 25, 64, 64, 64, 64, 64,
   64, 26, 27, 28, 29, 30, 31, 32, 33, 34, 35, 36, 37, 38, 39, 40,
   41, 42, 43, 44, 45, 46, 47, 48, 49, 50, 51, 64, 64, 64, 64, 64] ++ List.replicate 128 64

/-- The output object and the write position in it. -/
structure Out where
  buf : Mem
  p : Nat
deriving Repr, DecidableEq

/-- `*p++ = c`. -/
def Out.put (o : Out) (c : Byte) : Option Out :=
  if o.p < o.buf.length then some ⟨o.buf.set o.p c, o.p + 1⟩ else none

/-- A `char` promoted to `int`. -/
def promote (c : Byte) : BitVec 32 := c.toBitVec.signExtend 32

/-- `basis_64[x]` for an `int` index; out of the table is `none`. -/
def basisAt (x : BitVec 32) : Option Byte := basis64[x.toNat]?

/-- base64.c 35: `(c >> 2) & 0x3F` (arithmetic shift). -/
def ix1 (a : Byte) : BitVec 32 := (promote a).sshiftRight 2 &&& 0x3F#32
/-- base64.c 36-37. -/
def ix2 (a b : Byte) : BitVec 32 :=
  ((promote a &&& 3#32) <<< 4) ||| ((promote b &&& 0xF0#32).sshiftRight 4)
/-- base64.c 38-39. -/
def ix3 (b c : Byte) : BitVec 32 :=
  ((promote b &&& 0xF#32) <<< 2) ||| ((promote c &&& 0xC0#32).sshiftRight 6)
/-- base64.c 40. -/
def ix4 (c : Byte) : BitVec 32 := promote c &&& 0x3F#32
/-- base64.c 47: `(a & 3) << 4`. -/
def ix2last (a : Byte) : BitVec 32 := (promote a &&& 3#32) <<< 4
/-- base64.c 54: `(b & 0xF) << 2`. -/
def ix3last (b : Byte) : BitVec 32 := (promote b &&& 0xF#32) <<< 2

/-- base64.c 33-41: the loop; returns the index `i` at which it stopped. `lim` is `src_buf_len - 2`. -/
def encLoop (src : Mem) (lim : Nat) : Nat → Nat → Out → Option (Nat × Out)
  | 0, _, _ => none
  | fuel + 1, i, o =>
    if i < lim then do
      let a ← src[i]?
      let b ← src[i + 1]?
      let c ← src[i + 2]?
      let o ← o.put (← basisAt (ix1 a))
      let o ← o.put (← basisAt (ix2 a b))
      let o ← o.put (← basisAt (ix3 b c))
      let o ← o.put (← basisAt (ix4 c))
      encLoop src lim fuel (i + 3) o
    else some (i, o)

/-- base64.c 44-49, 56 (`i == src_buf_len - 1`: one byte left). -/
def encTail1 (src : Mem) (i : Nat) (o : Out) : Option Out := do
  let a ← src[i]?
  let o ← o.put (← basisAt (ix1 a))
  let o ← o.put (← basisAt (ix2last a))
  let o ← o.put 61
  o.put 61

/-- base64.c 44, 50-56 (two bytes left). -/
def encTail2 (src : Mem) (i : Nat) (o : Out) : Option Out := do
  let a ← src[i]?
  let o ← o.put (← basisAt (ix1 a))
  let b ← src[i + 1]?
  let o ← o.put (← basisAt (ix2 a b))
  let o ← o.put (← basisAt (ix3last b))
  o.put 61

/-- base64.c 42-57. -/
def encTail (src : Mem) (n i : Nat) (o : Out) : Option Out :=
  if i < n then (if i = n - 1 then encTail1 src i o else encTail2 src i o) else some o

/-- `(int)` of a non-negative `size_t`/`ptrdiff_t`. -/
def toInt32 (n : Nat) : Int := (BitVec.ofNat 32 n).toInt

/-- base64.c 23-61: `lcu_base64_encode`. Result: output object and returned value. -/
def encode (out src : Mem) (n : Nat) : Option (Mem × Int) :=
  if n < 2 then some (out, -1)
  else do
    let r ← encLoop src (n - 2) (n + 1) 0 ⟨out, 0⟩
    let o ← encTail src n r.1 r.2
    let o ← o.put 0
    some (o.buf, toInt32 o.p)

/-- base64.c 18-21: `lcu_base64_encode_buf_size`. -/
def encodeBufSize (n : Nat) : Int := toInt32 (((n + 2) % 2 ^ 64 / 3 * 4 + 1) % 2 ^ 64)

/-- base64.c 85-88: `lcu_base64_decode_buf_size`. -/
def decodeBufSize (n : Nat) : Int := toInt32 (((n + 3) % 2 ^ 64 / 4 * 3 + 1) % 2 ^ 64)

/-- `pr2six[c]`. -/
def six (c : Byte) : Nat := pr2six.getD c.toNat 0

/-- base64.c 98-99: number of leading characters in the alphabet; `none` if the scan leaves the
object. -/
def scan (src : Mem) : Nat → Nat → Option Nat
  | 0, _ => none
  | fuel + 1, i =>
    match src[i]? with
    | none => none
    | some c => if six c ≤ 63 then scan src fuel (i + 1) else some i

/-- base64.c 107: `(unsigned char)(pr2six[a] << 2 | pr2six[b] >> 4)`. -/
def dec1 (a b : Byte) : Byte := UInt8.ofNat (six a <<< 2 ||| six b >>> 4)
/-- base64.c 108. -/
def dec2 (b c : Byte) : Byte := UInt8.ofNat (six b <<< 4 ||| six c >>> 2)
/-- base64.c 109. -/
def dec3 (c d : Byte) : Byte := UInt8.ofNat (six c <<< 6 ||| six d)

/-- base64.c 105-112: the loop; `nprbytes` and `bufin` (as an index) after it. -/
def decLoop (src : Mem) : Nat → Nat → Nat → Out → Option (Nat × Nat × Out)
  | 0, _, _, _ => none
  | fuel + 1, n, i, o =>
    if n > 4 then do
      let a ← src[i]?
      let b ← src[i + 1]?
      let o ← o.put (dec1 a b)
      let c ← src[i + 2]?
      let o ← o.put (dec2 b c)
      let d ← src[i + 3]?
      let o ← o.put (dec3 c d)
      decLoop src fuel (n - 4) (i + 4) o
    else some (n, i, o)

/-- `*(bufout++) = f(bufin[j], bufin[j+1])` of lines 115-126. -/
def decPut (src : Mem) (j : Nat) (f : Byte → Byte → Byte) (o : Out) : Option Out := do
  let a ← src[j]?
  let b ← src[j + 1]?
  o.put (f a b)

/-- base64.c 115-118. -/
def tail1 (src : Mem) (n i : Nat) (o : Out) : Option Out :=
  if n > 1 then decPut src i dec1 o else some o
/-- base64.c 119-122. -/
def tail2 (src : Mem) (n i : Nat) (o : Out) : Option Out :=
  if n > 2 then decPut src (i + 1) dec2 o else some o
/-- base64.c 123-126. -/
def tail3 (src : Mem) (n i : Nat) (o : Out) : Option Out :=
  if n > 3 then decPut src (i + 2) dec3 o else some o

/-- base64.c 90-131: `lcu_base64_decode`.  Result: output object and returned value; the `int`
arithmetic on lines 99-100 and 129 is done in mathematical integers (no overflow below 2^31
characters). -/
def decode (out src : Mem) : Option (Mem × Int) := do
  let n ← scan src (src.length + 1) 0
  let nbytes := (n + 3) / 4 * 3
  let r ← decLoop src (n + 1) n 0 ⟨out, 0⟩
  let o ← tail1 src r.1 r.2.1 r.2.2
  let o ← tail2 src r.1 r.2.1 o
  let o ← tail3 src r.1 r.2.1 o
  let o ← o.put 0
  some (o.buf, (nbytes : Int) - (((4 - r.1 : Nat) &&& 3 : Nat) : Int))

end Verif.Base64
