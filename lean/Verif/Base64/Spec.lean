import Verif.Base64.Model
/-!
# Specification: RFC 4648 section 4

Bytes are read as base-256 digits of a number, characters as base-64 digits of the same number.
-/
namespace Verif.Base64.Spec

/-- The character for a 6-bit value (RFC 4648 table 1), as an ASCII code. -/
def alpha (v : Nat) : Byte :=
  if v < 26 then UInt8.ofNat (65 + v)            -- 'A'..'Z'
  else if v < 52 then UInt8.ofNat (97 + (v - 26)) -- 'a'..'z'
  else if v < 62 then UInt8.ofNat (48 + (v - 52)) -- '0'..'9'
  else if v = 62 then 43                          -- '+'
  else 47                                         -- '/'

/-- The pad character '='. -/
def pad : Byte := 61

/-- Encode: 24-bit groups; the last group of 8 or 16 bits is filled with zero bits to 12 or 18 bits
and padded with '='. -/
def encode : List Byte → List Byte
  | a :: b :: c :: rest =>
    let N := a.toNat * 65536 + b.toNat * 256 + c.toNat
    alpha (N / 262144) :: alpha (N / 4096 % 64) :: alpha (N / 64 % 64) :: alpha (N % 64) :: encode rest
  | [a, b] =>
    let N := (a.toNat * 256 + b.toNat) * 4
    [alpha (N / 4096), alpha (N / 64 % 64), alpha (N % 64), pad]
  | [a] =>
    let N := a.toNat * 16
    [alpha (N / 64), alpha (N % 64), pad, pad]
  | [] => []

/-- The 6-bit value of a character of the alphabet. -/
def value (c : Byte) : Option Nat :=
  let n := c.toNat
  if 65 ≤ n ∧ n ≤ 90 then some (n - 65)
  else if 97 ≤ n ∧ n ≤ 122 then some (n - 97 + 26)
  else if 48 ≤ n ∧ n ≤ 57 then some (n - 48 + 52)
  else if n = 43 then some 62
  else if n = 47 then some 63
  else none

/-- The longest prefix of alphabet characters, as 6-bit values. -/
def values (s : List Byte) : List Nat := (s.takeWhile fun c => (value c).isSome).filterMap value

/-- Bytes of a sequence of 6-bit values: four values make three bytes; a rest of two or three values
makes one or two; a single left-over value carries less than a byte and is dropped. -/
def bytes : List Nat → List Byte
  | a :: b :: c :: d :: rest =>
    let N := ((a * 64 + b) * 64 + c) * 64 + d
    UInt8.ofNat (N / 65536) :: UInt8.ofNat (N / 256 % 256) :: UInt8.ofNat (N % 256) :: bytes rest
  | [a, b, c] =>
    let N := (a * 64 + b) * 64 + c
    [UInt8.ofNat (N / 1024), UInt8.ofNat (N / 4 % 256)]
  | [a, b] => [UInt8.ofNat ((a * 64 + b) / 16)]
  | _ => []

/-- Decode up to the first character outside the alphabet. -/
def decode (s : List Byte) : List Byte := bytes (values s)

end Verif.Base64.Spec
