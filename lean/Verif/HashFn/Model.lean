import Verif.Common.CStr

/-! # Model of the hash functions, `/repo/src/data/hash_functions.c` (LP64, `char` signed) -/
namespace Verif.HashFn

/-- hash_functions.c 22-24 `PTR_TO_INT`: the low 32 bits, as an `int`. -/
def ptrToInt (p : BitVec 64) : Int := (p.truncate 32).toInt

/-- Conversion of a 64-bit value to `int` (modulo 2^32). -/
def toInt32 (x : Int) : Int := (BitVec.ofInt 32 x).toInt

/-- hash_functions.c 26-29. -/
def naive (key : BitVec 64) : Int := ptrToInt key

/-- hash_functions.c 33-36: `int * long`, `none` if the 64-bit product overflows. -/
def integer (key : BitVec 64) : Option Int :=
  let p := ptrToInt key * 2654435761
  if -9223372036854775808 ≤ p ∧ p ≤ 9223372036854775807 then some (toInt32 p) else none

/-- hash_functions.c 38-41. -/
def pointer (key : BitVec 64) : Option Int :=
  let p := ptrToInt key * 2654435761
  if -9223372036854775808 ≤ p ∧ p ≤ 9223372036854775807 then some (toInt32 p) else none

def inInt (x : Int) : Bool := -2147483648 ≤ x ∧ x ≤ 2147483647

/-- `char` as a number. -/
def schar (c : Byte) : Int := c.toBitVec.toInt

/-- hash_functions.c 59: `((hash << 5) + hash) + c`; a left shift of a negative value or out of range, and an
addition out of range, are undefined. -/
def step (h : Int) (c : Byte) : Option Int :=
  if h < 0 ∨ ¬ inInt (h * 32) then none
  else if ¬ inInt (h * 32 + h) then none
  else if ¬ inInt (h * 32 + h + schar c) then none
  else some (h * 32 + h + schar c)

/-- hash_functions.c 57-61: the loop over the characters. -/
def loop : Int → List Byte → Option Int
  | h, [] => some h
  | h, c :: s => (step h c).bind fun h => loop h s

/-- hash_functions.c 52-63 `hash_function_string` on the object `m`. -/
def string (m : Mem) : Option Int := (m.cstr 0).bind fun s => loop 5381 s

/-- The same with arithmetic modulo 2^32, which compilers usually produce. -/
def wrapStep (h : BitVec 32) (c : Byte) : BitVec 32 := (h <<< 5) + h + c.toBitVec.signExtend 32

def wrapString (s : List Byte) : BitVec 32 := s.foldl wrapStep 5381#32

end Verif.HashFn
