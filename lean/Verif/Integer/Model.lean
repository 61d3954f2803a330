/-!
# Model of `src/data/integer.c`

`uint32_t` is `BitVec 32`: `-`, `+`, `|`, `&`, `>>` are the C operators on unsigned 32-bit values
(wrapping arithmetic, logical shift).
-/
namespace Verif.Integer

/-- `integer_is_power_of_two`, src/data/integer.c:3-6. -/
def isPowerOfTwo (i : BitVec 32) : Bool :=
  decide (1#32 < i) && (i &&& (i - 1#32)) == 0#32

/-- The "smear" statements, src/data/integer.c:20-24. -/
def smear (i : BitVec 32) : BitVec 32 :=
  let i := i ||| (i >>> 1)
  let i := i ||| (i >>> 2)
  let i := i ||| (i >>> 4)
  let i := i ||| (i >>> 8)
  i ||| (i >>> 16)

/-- `integer_roundup_pow_of_two`, src/data/integer.c:8-27. -/
def roundup (i : BitVec 32) : BitVec 32 :=
  if i < 1#32 then 0#32
  else if isPowerOfTwo i then i
  else smear i + 1#32

/-- `integer_rounddown_pow_of_two`, src/data/integer.c:29-41. -/
def rounddown (i : BitVec 32) : BitVec 32 :=
  if i < 2#32 then 0#32
  else
    let r := roundup i
    if r == i then r else r >>> 1

end Verif.Integer
