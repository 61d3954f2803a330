import Verif.StringBuilder.Model
/-!
# What a string builder is

A text, to which every successful call appends its piece; `clear` empties it.
-/
namespace Verif.StringBuilder.Spec

/-- The text a call contributes. -/
def piece : Op → List Byte
  | .chr c _ => [c]
  | .str s _ => s.takeWhile (· ≠ 0)
  | .nstr s n _ => if n = 0 then s.takeWhile (· ≠ 0) else s.take n
  | .fmt t _ => t.getD []
  | .clear => []

/-- The text after one call that returned `code`. -/
def step (text : List Byte) (op : Op) (code : Int) : List Byte :=
  match op with
  | .clear => []
  | op => if code = 0 then text ++ piece op else text

/-- The text after a sequence of calls with their return values. -/
def after (text : List Byte) : List (Op × Int) → List Byte
  | [] => text
  | (op, r) :: h => after (step text op r) h

/-- The caller's obligations: pointers are valid for what the call is asked to read, the format expands
without error. -/
def ok : Op → Prop
  | .chr _ _ => True
  | .str s _ => (0 : Byte) ∈ s ∧ s.length < 2 ^ 63
  | .nstr s n _ => (if n = 0 then (0 : Byte) ∈ s else n ≤ s.length) ∧ s.length < 2 ^ 63
  | .fmt t _ => ∃ x, t = some x ∧ x.length < 2 ^ 31
  | .clear => True

/-- The builder holds `text`: the buffer is an object of `allocated` bytes that starts with the text and a
NUL, and the length is right. -/
def Holds (sb : Sb) (text : List Byte) : Prop :=
  sb.buf.length = sb.allocated ∧ sb.allocated < 2 ^ 63 ∧ len sb = text.length ∧
    ∃ junk, toStr sb = text ++ 0 :: junk

/-- The allocator's answer attached to a call. -/
def answer : Op → Alloc
  | .chr _ a => a
  | .str _ a => a
  | .nstr _ _ a => a
  | .fmt _ a => a
  | .clear => none

end Verif.StringBuilder.Spec
