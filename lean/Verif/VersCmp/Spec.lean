import Verif.Common.Out

/-!
# Comparing version strings

The comparison of the GNU C library's `strverscmp`, as an automaton that runs over the common part of both strings and decides at
the first difference (its tables), and the table of this library, which differs in two entries.
-/
namespace Verif.VersCmp.Spec

/-- Other character (or end of string), digit 1-9, digit 0. -/
inductive Cls
  | x | d | z
  deriving DecidableEq, Repr

def cls (c : Byte) : Cls := if c = 48 then .z else if 49 ≤ c ∧ c ≤ 57 then .d else .x

/-- Where the common part ends: not in a number, in a number, in one with leading zeros, in its leading zeros. -/
inductive State
  | N | I | F | Z
  deriving DecidableEq, Repr

def next : State → Cls → State
  | _, .x => .N
  | .N, .d => .I
  | .N, .z => .Z
  | .I, _ => .I
  | .F, _ => .F
  | .Z, .d => .F
  | .Z, .z => .Z

/-- How a difference is decided: by the characters, by the lengths of the numbers and then by the characters, or at once. -/
inductive Res
  | cmp | len | less | greater
  deriving DecidableEq, Repr

/-- The table of the GNU C library. -/
def gnu : State → Cls → Cls → Res
  | .N, .d, .d => .len
  | .N, _, _ => .cmp
  | .I, .x, .x => .cmp
  | .I, .x, _ => .less
  | .I, _, .x => .greater
  | .I, _, _ => .len
  | .F, _, _ => .cmp
  | .Z, .x, .x => .cmp
  | .Z, .x, _ => .greater
  | .Z, _, .x => .less
  | .Z, _, _ => .cmp

/-- The table of this library: a string that goes on with a 0 comes before one that goes on with another character than a digit. -/
def here : State → Cls → Cls → Res
  | .N, .x, .z => .greater
  | .N, .z, .x => .less
  | s, a, b => gnu s a b

/-- A digit. -/
def isDig (c : Byte) : Bool := 48 ≤ c ∧ c ≤ 57

/-- The number of digits a string begins with. -/
def run (s : List Byte) : Nat := (s.takeWhile isDig).length

/-- The next character; 0 at the end. -/
def hd (s : List Byte) : Byte := s.headD 0

/-- The decision at the first difference. -/
def decide (table : State → Cls → Cls → Res) (st : State) (s t : List Byte) : Ordering :=
  match table st (cls (hd s)) (cls (hd t)) with
  | .cmp => compare (hd s).toNat (hd t).toNat
  | .len => (compare (run s) (run t)).then (compare (hd s).toNat (hd t).toNat)
  | .less => .lt
  | .greater => .gt

/-- The comparison. -/
def cmp (table : State → Cls → Cls → Res) : State → List Byte → List Byte → Ordering
  | _, [], [] => .eq
  | st, c :: s, d :: t => if c = d then cmp table (next st (cls c)) s t else decide table st (c :: s) (d :: t)
  | st, s, t => decide table st s t

end Verif.VersCmp.Spec
