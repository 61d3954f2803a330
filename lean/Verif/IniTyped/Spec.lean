import Verif.IniParser.Spec
import Verif.StrParams.Literal
import Verif.Common.Dec
/-!
# Meaning of texts for the typed getters (specification)

Integers are those of `Verif.StrParams.Spec.IsInt` (C notation), with the nearest 64-bit number `toLong`.
-/
namespace Verif.IniTyped.Spec
open Verif.IniParser.Spec (norm)
open Verif.Strings (decText)

/-- `t` begins with the word `w` in any letter case. -/
def Begins (t w : List Byte) : Prop := ∃ a b, t = a ++ b ∧ norm a = norm w

/-- "true" -/
def wTrue : List Byte := [116, 114, 117, 101]
/-- "false" -/
def wFalse : List Byte := [102, 97, 108, 115, 101]
/-- "yes" -/
def wYes : List Byte := [121, 101, 115]
/-- "no" -/
def wNo : List Byte := [110, 111]

/-- The text begins with one of the four words. -/
def Word (t : List Byte) (b : Bool) : Prop :=
  if b then Begins t wTrue ∨ Begins t wYes else Begins t wFalse ∨ Begins t wNo

/-- `i` is the `int` the hardware keeps of the number `n`. -/
def Low32 (n i : Int) : Prop := -2 ^ 31 ≤ i ∧ i < 2 ^ 31 ∧ (2 ^ 32 : Int) ∣ n - i

/-- Decimal text of an integer. -/
def decimal (n : Int) : List Byte := if n < 0 then 45 :: decText n.natAbs else decText n.natAbs

/-- The texts put are C strings. -/
def CText : IniParser.Spec.Op → Prop
  | .put _ _ v => (0 : Byte) ∉ v
  | _ => True

/-- White space of the "C" locale. -/
def White (c : Byte) : Prop := c = 32 ∨ (9 ≤ c.toNat ∧ c.toNat ≤ 13)

/-- A text that cannot be a path: empty, or several lines, or its first character that is not white space begins a comment
or a section. -/
def Content (t : List Byte) : Prop :=
  t = [] ∨ (10 : Byte) ∈ t ∨ ∃ ws c rest, t = ws ++ c :: rest ∧ (∀ x ∈ ws, White x) ∧ (c = 35 ∨ c = 91)

end Verif.IniTyped.Spec
