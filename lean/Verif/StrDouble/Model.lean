import Verif.StrParams.Props
import Mathlib.Data.Rat.Floor
import Mathlib.Tactic.Linarith
import Mathlib.Tactic.NormNum
import Mathlib.Tactic.Positivity
/-!
# `str_params_add_double`, `_add_float`, `_get_double`, `_get_float` (src/mem/str_params.c:226-242, 292-319)

A double is a bit pattern's meaning: sign, integer significand, binary exponent (or infinity, or not a number).
The C library's conversions (`printf("%.10f")`, `strtod`, the cast to `float`) round to a nearest value, ties as they
like: the rounding functions are a parameter, their contract is in `CLib`.  The locale is "C" (decimal point '.').
-/
namespace Verif.StrDouble
open Verif.StrParams Verif.Strings

/-- IEEE 754 binary64 (and binary32, see `Float32`) values -/
inductive Dbl where
  | fin (neg : Bool) (m : Nat) (e : Int)
  | inf (neg : Bool)
  | nan (neg : Bool)
  deriving DecidableEq

/-- magnitude of a finite value -/
def mag (m : Nat) (e : Int) : ℚ := (m : ℚ) * 2 ^ e

/-- significand and exponent of a finite double -/
def IsDouble (m : Nat) (e : Int) : Prop := m < 2 ^ 53 ∧ -1074 ≤ e ∧ e ≤ 971

/-- significand and exponent of a finite `float` -/
def IsFloat (m : Nat) (e : Int) : Prop := m < 2 ^ 24 ∧ -149 ≤ e ∧ e ≤ 104

/-- The C library's rounding. -/
structure CLib where
  /-- the integer `printf` prints for a magnitude scaled by 10^10 -/
  round : ℚ → Nat
  round_near : ∀ q, 0 ≤ q → |(round q : ℚ) - q| ≤ 1 / 2
  /-- the double `strtod` gives for a magnitude; `none`: overflow, HUGE_VAL -/
  near : ℚ → Option (Nat × Int)
  near_fin : ∀ q, 0 ≤ q → q < 2 ^ 1024 - 2 ^ 970 → ∃ m e, near q = some (m, e) ∧ IsDouble m e ∧
    ∀ m' e', IsDouble m' e' → |mag m e - q| ≤ |mag m' e' - q|
  near_inf : ∀ q, 2 ^ 1024 - 2 ^ 970 ≤ q → near q = none
  /-- the `float` a magnitude is converted to -/
  nearF : ℚ → Option (Nat × Int)
  nearF_fin : ∀ q, 0 ≤ q → q < 2 ^ 128 - 2 ^ 103 → ∃ m e, nearF q = some (m, e) ∧ IsFloat m e ∧
    ∀ m' e', IsFloat m' e' → |mag m e - q| ≤ |mag m' e' - q|
  nearF_inf : ∀ q, 2 ^ 128 - 2 ^ 103 ≤ q → nearF q = none

/-- the last `k` decimal digits of `n`, with leading zeros -/
def fracText : Nat → Nat → List Byte
  | 0, _ => []
  | k + 1, n => fracText k (n / 10) ++ [UInt8.ofNat (48 + n % 10)]

/-- a minus sign -/
def signText (neg : Bool) : List Byte := if neg then [45] else []

/-- `printf("%.10f", x)` -/
def fmtF (lib : CLib) : Dbl → List Byte
  | .fin neg m e =>
    let n := lib.round (mag m e * 10 ^ 10)
    signText neg ++ decText (n / 10 ^ 10) ++ [46] ++ fracText 10 (n % 10 ^ 10)
  | .inf neg => signText neg ++ [105, 110, 102]
  | .nan neg => signText neg ++ [110, 97, 110]

/-- str_params.c 226-237: `str_params_add_double` (`snprintf` does not fail) -/
def addDouble (lib : CLib) (s : St) (key : List Byte) (x : Dbl) (ok : Oks) : Option (St × Int) :=
  match Mem.snprintf (List.replicate 32 0) 0 32 (fmtF lib x) with
  | none => none
  | some (buf, _) =>
    match buf.cstr 0 with
    | none => none
    | some v => addStr s key v ok

/-- str_params.c 239-242: `str_params_add_float`; every `float` is a double -/
def addFloat (lib : CLib) (s : St) (key : List Byte) (x : Dbl) (ok : Oks) : Option (St × Int) :=
  addDouble lib s key x ok

/-! ### `strtod` -/

/-- digits of `base` at the front: value (from `acc`), how many (from `cnt`), rest -/
def scan (base : Nat) : Nat → Nat → List Byte → Nat × Nat × List Byte
  | acc, cnt, [] => (acc, cnt, [])
  | acc, cnt, c :: s =>
    match digitVal c with
    | some d => if d < base then scan base (acc * base + d) (cnt + 1) s else (acc, cnt, c :: s)
    | none => (acc, cnt, c :: s)

/-- digits, optionally a point and digits, at least one digit: value without the point, digits after it, rest -/
def mantissa (base : Nat) (s : List Byte) : Option (Nat × Nat × List Byte) :=
  match scan base 0 0 s with
  | (n, c, 46 :: r) =>
    match scan base n 0 r with
    | (n', c', r') => if c + c' = 0 then none else some (n', c', r')
  | (n, c, r) => if c = 0 then none else some (n, 0, r)

/-- the digits of an exponent after its sign; without a digit there is no exponent -/
def expDigits (neg : Bool) (s whole : List Byte) : Int × List Byte :=
  match scan 10 0 0 s with
  | (_, 0, _) => (0, whole)
  | (n, _, r) => (if neg then -(n : Int) else n, r)

/-- an exponent, introduced by one of two letters -/
def exponent (lo up : Byte) (s : List Byte) : Int × List Byte :=
  match s with
  | c :: r =>
    if c = lo ∨ c = up then
      match r with
      | 45 :: r' => expDigits true r' s
      | 43 :: r' => expDigits false r' s
      | r' => expDigits false r' s
    else (0, s)
  | [] => (0, [])

/-- lower case of an ASCII letter -/
def lower (c : Byte) : Byte := if 65 ≤ c.toNat ∧ c.toNat ≤ 90 then UInt8.ofNat (c.toNat + 32) else c

/-- does the text start with this word, in any case? -/
def starts (w s : List Byte) : Bool := w.length ≤ s.length ∧ (s.take w.length).map lower = w

/-- the optional part of `nan(...)`: letters, digits and underscores in parentheses -/
def nanRest (s : List Byte) : List Byte :=
  match s with
  | 40 :: r =>
    let body := r.takeWhile fun c => (digitVal c).isSome || c = 95
    match r.drop body.length with
    | 41 :: r' => r'
    | _ => s
  | _ => s

/-- what a text after the sign denotes -/
inductive Lit where
  /-- `n * base ^ e` -/
  | num (n base : Nat) (e : Int)
  | inf
  | nan

/-- the number after blanks and sign; `none`: no number -/
def literal (s : List Byte) : Option (Lit × List Byte) :=
  if starts [105, 110, 102, 105, 110, 105, 116, 121] s then some (.inf, s.drop 8)
  else if starts [105, 110, 102] s then some (.inf, s.drop 3)
  else if starts [110, 97, 110] s then some (.nan, nanRest (s.drop 3))
  else
    match (if starts [48, 120] s then mantissa 16 (s.drop 2) else none) with
    | some (n, k, r) =>
      match exponent 112 80 r with
      | (e, r') => some (.num n 2 (e - 4 * k), r')
    | none =>
      match mantissa 10 s with
      | none => none
      | some (n, k, r) =>
        match exponent 101 69 r with
        | (e, r') => some (.num n 10 (e - k), r')

/-- the double for a literal with its sign -/
def toDbl (lib : CLib) (neg : Bool) : Lit → Dbl
  | .num n b e =>
    match lib.near ((n : ℚ) * (b : ℚ) ^ e) with
    | some (m, e) => .fin neg m e
    | none => .inf neg
  | .inf => .inf neg
  | .nan => .nan neg

/-- the number after blanks: sign -/
def signed (s : List Byte) : Bool × List Byte :=
  match s with
  | 45 :: r => (true, r)
  | 43 :: r => (false, r)
  | r => (false, r)

/-- `strtod(s, &end)`: value and the string at `end` (the whole string if nothing was converted) -/
def strtod (lib : CLib) (s : List Byte) : Dbl × List Byte :=
  match signed (s.dropWhile isSpace) with
  | (neg, r) =>
    match literal r with
    | some (l, rest) => (toDbl lib neg l, rest)
    | none => (.fin false 0 0, s)

/-- str_params.c 292-308: `str_params_get_double`; the stored number (`none`: `*out_val` untouched) and the result -/
def getDouble (lib : CLib) (s : St) (key : List Byte) : Option (Option Dbl × Int) :=
  match lookup s key with
  | none => none
  | some 0 => some (none, -2)
  | some p =>
    match readStr s p with
    | none => none
    | some v =>
      if v = [] ∨ (strtod lib v).2 ≠ [] then some (none, -22) else some (some (strtod lib v).1, 0)

/-- `(float)x` -/
def toFloat (lib : CLib) : Dbl → Dbl
  | .fin neg m e =>
    match lib.nearF (mag m e) with
    | some (m, e) => .fin neg m e
    | none => .inf neg
  | .inf neg => .inf neg
  | .nan neg => .nan neg

/-- str_params.c 310-319: `str_params_get_float` -/
def getFloat (lib : CLib) (s : St) (key : List Byte) : Option (Option Dbl × Int) :=
  (getDouble lib s key).map fun r => (r.1.map (toFloat lib), r.2)

end Verif.StrDouble
