import Verif.Common.Mem
/-!
# Specifications for the string functions
-/
namespace Verif.Strings.Spec

/-- Replace all leftmost non-overlapping occurrences of `pat` (non-empty) by `rep`: scan from the left;
where `pat` matches, emit `rep` and go on behind the match, otherwise emit one character. -/
def replace (pat rep : List Byte) : List Byte → List Byte
  | [] => []
  | c :: s =>
    if pat ≠ [] ∧ pat <+: (c :: s) then rep ++ replace pat rep ((c :: s).drop pat.length)
    else c :: replace pat rep s
termination_by s => s.length
decreasing_by
  · rename_i h
    have : pat.length ≠ 0 := fun e => h.1 (List.eq_nil_of_length_eq_zero e)
    simp; omega
  · simp

/-- Without its longest prefix and suffix of characters in `cset`. -/
def trim (cset : List Byte) (s : List Byte) : List Byte :=
  ((s.dropWhile cset.contains).reverse.dropWhile cset.contains).reverse

/-- UTF-8 encoding of a Unicode code point below 2^21. -/
def utf8 (cp : Nat) : List Byte :=
  if cp < 0x80 then [UInt8.ofNat cp]
  else if cp < 0x800 then [UInt8.ofNat (0xC0 + cp / 64), UInt8.ofNat (0x80 + cp % 64)]
  else if cp < 0x10000 then
    [UInt8.ofNat (0xE0 + cp / 4096), UInt8.ofNat (0x80 + cp / 64 % 64), UInt8.ofNat (0x80 + cp % 64)]
  else
    [UInt8.ofNat (0xF0 + cp / 262144), UInt8.ofNat (0x80 + cp / 4096 % 64),
      UInt8.ofNat (0x80 + cp / 64 % 64), UInt8.ofNat (0x80 + cp % 64)]

/-- A Unicode scalar value other than NUL. -/
def Scalar (cp : Nat) : Prop := 0 < cp ∧ cp < 0x110000 ∧ ¬ (0xD800 ≤ cp ∧ cp ≤ 0xDFFF)

/-- How many of the code points `cps`, encoded one behind the other, start within the first `max`
bytes. -/
def startedWithin : List Nat → Nat → Nat
  | [], _ => 0
  | cp :: cps, max => if max = 0 then 0 else 1 + startedWithin cps (max - (utf8 cp).length)

/-- Lower-case hexadecimal digit. -/
def hexDigit (v : Nat) : Byte := UInt8.ofNat (if v < 10 then 48 + v else 87 + v)

/-- A blank and two hexadecimal digits for each byte. -/
def hexDump (s : List Byte) : List Byte :=
  s.flatMap fun c => [32, hexDigit (c.toNat / 16), hexDigit (c.toNat % 16)]

end Verif.Strings.Spec
