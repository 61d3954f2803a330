import Verif.Common.Mem
/-!
# Specification: application/x-www-form-urlencoded text
-/
namespace Verif.Url.Spec

/-- Letters, digits and `. - * _`. -/
def Unreserved (c : Byte) : Prop :=
  (65 ≤ c.toNat ∧ c.toNat ≤ 90) ∨ (97 ≤ c.toNat ∧ c.toNat ≤ 122) ∨ (48 ≤ c.toNat ∧ c.toNat ≤ 57) ∨
    c.toNat = 46 ∨ c.toNat = 45 ∨ c.toNat = 42 ∨ c.toNat = 95

instance (c : Byte) : Decidable (Unreserved c) := by unfold Unreserved; infer_instance

/-- Upper-case hexadecimal digit of a value below 16. -/
def hexChar (v : Nat) : Byte := UInt8.ofNat (if v < 10 then 48 + v else 55 + v)

/-- Encoding of one byte: itself if unreserved, `+` for a space, otherwise `%XX`. -/
def esc (c : Byte) : List Byte :=
  if Unreserved c then [c]
  else if c = 32 then [43]
  else [37, hexChar (c.toNat / 16), hexChar (c.toNat % 16)]

/-- Encoding of a byte string. -/
def encode (s : List Byte) : List Byte := s.flatMap esc

/-- Value of a hexadecimal digit of either case. -/
def hexVal (c : Byte) : Option Nat :=
  let n := c.toNat
  if 48 ≤ n ∧ n ≤ 57 then some (n - 48)
  else if 65 ≤ n ∧ n ≤ 70 then some (n - 55)
  else if 97 ≤ n ∧ n ≤ 102 then some (n - 87)
  else none

/-- `Decodes e d`: the encoded text `e` stands for the bytes `d`. -/
inductive Decodes : List Byte → List Byte → Prop
  | nil : Decodes [] []
  | plain {e d c} : Decodes e d → Unreserved c → Decodes (e ++ [c]) (d ++ [c])
  | plus {e d} : Decodes e d → Decodes (e ++ [43]) (d ++ [32])
  | pct {e d a b x y} : Decodes e d → hexVal a = some x → hexVal b = some y →
      Decodes (e ++ [37, a, b]) (d ++ [UInt8.ofNat (x * 16 + y)])

/-- `Malformed r`: the front of `r` is neither an unreserved character, nor `+`, nor (the beginning of)
an escape `%hh`. -/
def Malformed (r : List Byte) : Prop :=
  ∃ c t, r = c :: t ∧ ((c ≠ 37 ∧ c ≠ 43 ∧ ¬ Unreserved c) ∨
    (c = 37 ∧ ∃ a b t', t = a :: b :: t' ∧ (hexVal a = none ∨ hexVal b = none)))

/-- An escape cut off by the end of the text. -/
def CutEscape (r : List Byte) : Prop := r = [37] ∨ ∃ a, r = [37, a]

end Verif.Url.Spec
