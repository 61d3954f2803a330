import Verif.Common.Out
/-!
# C strings in memory, and the libc string functions used by the code

These are the library's contracts (ISO C / POSIX), written directly; none = the function would read or
write outside the object (e.g. a missing NUL).
-/
namespace Verif

/-- The C string starting at offset `p` of object `m`: the bytes before the first NUL. -/
def Mem.cstr (m : Mem) (p : Nat) : Option (List Byte) :=
  let t := (m.drop p).takeWhile (· ≠ 0)
  if p + t.length < m.length then some t else none

/-- `strlen(m + p)`. -/
def Mem.strlen (m : Mem) (p : Nat) : Option Nat := (m.cstr p).map List.length

/-- `strchr(set, c) != NULL`: the terminating NUL counts as part of the string. -/
def strchrIn (set : List Byte) (c : Byte) : Bool := set.contains c || c == 0

/-- `strstr(s, p)` on the characters of two C strings: index of the first occurrence. -/
def strstr (p : List Byte) : List Byte → Option Nat
  | [] => if p.isPrefixOf [] then some 0 else none
  | c :: s => if p.isPrefixOf (c :: s) then some 0 else (strstr p s).map (· + 1)

/-- `snprintf(m + off, limit, "%s", text)` for already formatted `text`: writes nothing when `limit` is
0, otherwise at most `limit - 1` characters and a NUL.  Returns the length of `text` (as the real
function does even when it truncates). -/
def Mem.snprintf (m : Mem) (off limit : Nat) (text : List Byte) : Option (Mem × Nat) :=
  if limit = 0 then some (m, text.length)
  else (m.store off (text.take (limit - 1) ++ [0])).map fun m => (m, text.length)

theorem takeWhile_no0 {s : List Byte} (h : (0 : Byte) ∉ s) (after : List Byte) :
    (s ++ 0 :: after).takeWhile (· ≠ 0) = s := by
  induction s with
  | nil => simp
  | cons a l ih =>
    have ha : a ≠ 0 := fun e => h (by simp [e])
    rw [List.cons_append, List.takeWhile_cons]
    simp only [ne_eq, ha, not_false_eq_true, decide_true, if_true]
    congr 1
    exact ih (fun hm => h (by simp [hm]))

theorem Mem.cstr_eq {m : Mem} {p : Nat} {s after : List Byte} (hd : m.drop p = s ++ 0 :: after)
    (h : (0 : Byte) ∉ s) : m.cstr p = some s := by
  have hl := congrArg List.length hd
  simp only [List.length_drop, List.length_append, List.length_cons] at hl
  unfold Mem.cstr
  simp only [hd, takeWhile_no0 h]
  rw [if_pos (by omega)]

theorem Mem.cstr_zero {s after : List Byte} (h : (0 : Byte) ∉ s) :
    Mem.cstr (s ++ 0 :: after) 0 = some s :=
  Mem.cstr_eq (after := after) (by simp) h

end Verif
