import Verif.Common.CStr

/-!
# Model of `strverscmp`, `/repo/inc/sys/dirent_windows.h` 1083-1148

`none`: reading outside the object, or `isdigit` of a negative `char` (undefined; `char` is signed on Windows).
-/
namespace Verif.VersCmp

/-- `isdigit(c)` of a `char`. -/
def isdigit (c : Byte) : Option Bool := if c < 128 then some (48 ≤ c && c ≤ 57) else none

/-- dirent_windows.h 1091-1097: the first difference; `some none`: the strings are equal. -/
def diffLoop (a b : Mem) : Nat → Nat → Option (Option Nat)
  | 0, _ => none
  | fuel + 1, i => do
    let x ← a[i]?
    let y ← b[i]?
    if x = y then (if x = 0 then return none else diffLoop a b fuel (i + 1))
    else return some i

/-- 1100-1103: back to the leftmost digit. -/
def backLoop (a : Mem) : Nat → Option Nat
  | 0 => some 0
  | j + 1 => do
    let x ← a[j]?
    if ← isdigit x then backLoop a j else return j + 1

/-- 1108-1110: over common zeros. -/
def zeroLoop (a b : Mem) : Nat → Nat → Option Nat
  | 0, _ => none
  | fuel + 1, j => do
    let x ← a[j]?
    if x = 48 then
      let y ← b[j]?
      if x = y then zeroLoop a b fuel (j + 1) else return j
    else return j

/-- 1128-1133: to the end of a number. -/
def runLoop (a : Mem) : Nat → Nat → Option Nat
  | 0, _ => none
  | fuel + 1, k => do
    let x ← a[k]?
    if ← isdigit x then runLoop a fuel (k + 1) else return k

/-- 1143: the characters as `unsigned char`. -/
def charDiff (a b : Mem) (i : Nat) : Option Int := do
  let x ← a[i]?
  let y ← b[i]?
  return (x.toNat : Int) - (y.toNat : Int)

/-- dirent_windows.h 1084-1144 `strverscmp`. -/
def strverscmp (a b : Mem) : Option Int := do
  let some i ← diffLoop a b (a.length + 1) 0 | return 0
  let j ← backLoop a i
  let x ← a[j]?
  let y ← b[j]?
  if x = 48 ∨ y = 48 then
    let j ← zeroLoop a b (a.length + 1) j
    let x ← a[j]?
    let y ← b[j]?
    if ← isdigit x then
      if !(← isdigit y) then return -1 else charDiff a b i
    else
      if ← isdigit y then return 1 else charDiff a b i
  else
    if ← isdigit x then
      if ← isdigit y then
        let k1 ← runLoop a (a.length + 1) j
        let k2 ← runLoop b (b.length + 1) j
        if k1 < k2 then return -1
        else if k1 > k2 then return 1
        else charDiff a b i
      else charDiff a b i
    else charDiff a b i

end Verif.VersCmp
