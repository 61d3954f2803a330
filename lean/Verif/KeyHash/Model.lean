import Verif.Common.Mem

/-!
# Model of `hashmap_hash`, `/repo/src/data/hashmap.c` 203-217 (LP64, `char` signed)

`hash` is the C function by the letter of the standard: an `int` operation whose exact result does not fit is undefined (`none`).
`wrapHash` is what compilers usually make of it, arithmetic modulo 2^32; the comment in the code says that it relies on that.
Both are undefined if a byte outside of the object is read.
-/
namespace Verif.KeyHash

/-- Does the number fit an `int`? -/
def inInt (x : Int) : Bool := -2147483648 ≤ x ∧ x ≤ 2147483647

/-- `char` as a number. -/
def schar (c : Byte) : Int := c.toBitVec.toInt

/-- hashmap.c 213: `h * 31 + *data`. -/
def step (h : Int) (c : Byte) : Option Int :=
  if ¬ inInt (h * 31) then none
  else if ¬ inInt (h * 31 + schar c) then none
  else some (h * 31 + schar c)

/-- hashmap.c 211-215: `todo` bytes from offset `p` of the object `m`. -/
def loop (m : Mem) : Nat → Nat → Int → Option Int
  | _, 0, h => some h
  | p, todo + 1, h => (m[p]?).bind fun c => (step h c).bind fun h => loop m (p + 1) todo h

/-- hashmap.c 206-217 `hashmap_hash(m + p, n)`; `(int)keySize` takes the size modulo 2^32. -/
def hash (m : Mem) (p n : Nat) : Option Int := loop m p n (BitVec.ofNat 32 n).toInt

/-- hashmap.c 213 with arithmetic modulo 2^32. -/
def wrapStep (h : BitVec 32) (c : Byte) : BitVec 32 := h * 31#32 + c.toBitVec.signExtend 32

/-- hashmap.c 211-215 with arithmetic modulo 2^32. -/
def wrapLoop (m : Mem) : Nat → Nat → BitVec 32 → Option (BitVec 32)
  | _, 0, h => some h
  | p, todo + 1, h => (m[p]?).bind fun c => wrapLoop m (p + 1) todo (wrapStep h c)

/-- hashmap.c 206-217 with arithmetic modulo 2^32. -/
def wrapHash (m : Mem) (p n : Nat) : Option (BitVec 32) := wrapLoop m p n (BitVec.ofNat 32 n)

end Verif.KeyHash
