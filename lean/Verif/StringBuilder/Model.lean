import Verif.Common.CStr
/-!
# Model of src/mem/stringbuilder.c

The builder's buffer is a byte object; accesses outside it are `none`.  NULL arguments (rejected with -1
by every function) are not modelled.  `size_t` arithmetic is modulo 2^64.
-/
namespace Verif.StringBuilder

/-- stringbuilder.c 11-16. -/
structure Sb where
  buf : Mem
  allocated : Nat
  length : Nat

/-- Answer of `malloc`/`realloc` to one request: NULL, or the bytes found in the new memory. -/
abbrev Alloc := Option (Nat → Byte)

/-- `n` bytes of fresh memory. -/
def fresh (j : Nat → Byte) (n : Nat) : Mem := (List.range n).map j

/-- `realloc(buf, n)` for `n` not below the present size: keeps the old bytes.  Requests above
`PTRDIFF_MAX` are refused, as every C library does. -/
def realloc (buf : Mem) (n : Nat) (a : Alloc) : Option Mem :=
  match a with
  | none => none
  | some j => if n < 2 ^ 63 then some (buf ++ fresh j (n - buf.length)) else none

/-- stringbuilder.c 25-28: the size of the first buffer. -/
def initSize (init : Nat) : Nat := if init < 2 then 128 else init

/-- stringbuilder.c 18-40: `stringbuilder_create`; outer `none` = undefined behaviour, inner `none` = NULL.
`a0`: the answer of `malloc` for the struct. -/
def create (init : Nat) (a0 : Bool) (a : Alloc) : Option (Option Sb) :=
  if a0 then
    match realloc [] (initSize init) a with
    | none => some none
    | some buf => (buf.poke 0 0).map fun buf => some { buf, allocated := initSize init, length := 0 }
  else some none

/-- stringbuilder.c 66-75: the doubling loop; `some none` = the size wrapped to 0 (`return -3`). -/
def grow (need : Nat) : Nat → Nat → Option (Option Nat)
  | 0, _ => none
  | fuel + 1, sz =>
    if sz < need then
      if sz * 2 % 2 ^ 64 = 0 then some none else grow need fuel (sz * 2 % 2 ^ 64)
    else some (some sz)

/-- stringbuilder.c 55-85: `sb_ensure_space`. -/
def ensureSpace (sb : Sb) (n : Nat) (a : Alloc) : Option (Sb × Int) :=
  if n = 0 then some (sb, -1)
  else if (sb.length + n + 1) % 2 ^ 64 ≤ sb.allocated then some (sb, 0)
  else
    match grow ((sb.length + n + 1) % 2 ^ 64) 65 sb.allocated with
    | none => none
    | some none => some (sb, -3)
    | some (some sz) =>
      match realloc sb.buf sz a with
      | none => some (sb, -4)
      | some buf => some ({ sb with buf, allocated := sz }, 0)

/-- stringbuilder.c 97-99, 128-129, 159-160: store the piece at `buffer + length`, advance, terminate. -/
def put (sb : Sb) (bs : List Byte) : Option (Sb × Int) :=
  match sb.buf.store sb.length bs with
  | none => none
  | some buf =>
    (buf.poke (sb.length + bs.length) 0).map fun buf =>
      ({ sb with buf, length := sb.length + bs.length }, 0)

/-- stringbuilder.c 87-101: `stringbuilder_appendchar`. -/
def appendchar (sb : Sb) (c : Byte) (a : Alloc) : Option (Sb × Int) :=
  match ensureSpace sb 1 a with
  | none => none
  | some (sb, r) => if r ≠ 0 then some (sb, -1) else put sb [c]

/-- stringbuilder.c 114-117: the number of bytes to append. -/
def pieceLen (str : Mem) (len : Nat) : Option Nat := if len = 0 then str.strlen 0 else some len

/-- stringbuilder.c 108-131: `stringbuilder_appendnstr`; `str` is the object the pointer points to. -/
def appendnstr (sb : Sb) (str : Mem) (len : Nat) (a : Alloc) : Option (Sb × Int) :=
  match pieceLen str len with
  | none => none
  | some len =>
    if len = 0 then some (sb, -2)
    else
      match ensureSpace sb len a with
      | none => none
      | some (sb, r) =>
        if r ≠ 0 then some (sb, -3)
        else
          match str.load 0 len with
          | none => none
          | some bs => put sb bs

/-- stringbuilder.c 103-106: `stringbuilder_appendstr`. -/
def appendstr (sb : Sb) (str : Mem) (a : Alloc) : Option (Sb × Int) := appendnstr sb str 0 a

/-- `(size_t)-1`. -/
def SIZE_MAX : Nat := 2 ^ 64 - 1

/-- stringbuilder.c 142-161 when `vsnprintf` failed and `len` is what its -1 became: the second
`vsnprintf` (limit `len + 1 = 0`) stores nothing; `length += len; buffer[length] = 0`. -/
def appendfErr (sb : Sb) (len : Nat) (a : Alloc) : Option (Sb × Int) :=
  match ensureSpace sb len a with
  | none => none
  | some (sb, r) =>
    if r ≠ 0 then some (sb, -3)
    else
      (sb.buf.poke ((sb.length + len) % 2 ^ 64) 0).map fun buf =>
        ({ sb with buf, length := (sb.length + len) % 2 ^ 64 }, 0)

/-- stringbuilder.c 155-161: the second `vsnprintf`, then the length and the terminator. -/
def putf (sb : Sb) (t : List Byte) : Option (Sb × Int) :=
  match sb.buf.snprintf sb.length (t.length + 1) t with
  | none => none
  | some (buf, _) =>
    (buf.poke (sb.length + t.length) 0).map fun buf =>
      ({ sb with buf, length := sb.length + t.length }, 0)

/-- stringbuilder.c 133-162: `stringbuilder_appendf`.  `text` is what the format expands to, `none` if
`vsnprintf` fails. -/
def appendf (sb : Sb) (text : Option (List Byte)) (a : Alloc) : Option (Sb × Int) :=
  match text with
  | none => appendfErr sb SIZE_MAX a
  | some t =>
    if t.length < 1 then some (sb, -2)
    else
      match ensureSpace sb t.length a with
      | none => none
      | some (sb, r) => if r ≠ 0 then some (sb, -3) else putf sb t

/-- stringbuilder.c 164-173: `stringbuilder_clear`. -/
def clear (sb : Sb) : Option (Sb × Int) :=
  (sb.buf.poke 0 0).map fun buf => ({ sb with buf, length := 0 }, 0)

/-- stringbuilder.c 175-178: `stringbuilder_len`. -/
def len (sb : Sb) : Nat := sb.length

/-- stringbuilder.c 180-183: `stringbuilder_to_string` (the object the returned pointer points to). -/
def toStr (sb : Sb) : Mem := sb.buf

/-- One API call, with the allocator's answer in case it needs memory. -/
inductive Op where
  | chr (c : Byte) (a : Alloc)
  | str (s : Mem) (a : Alloc)
  | nstr (s : Mem) (n : Nat) (a : Alloc)
  | fmt (text : Option (List Byte)) (a : Alloc)
  | clear

/-- Dispatch of one call. -/
def step (sb : Sb) : Op → Option (Sb × Int)
  | .chr c a => appendchar sb c a
  | .str s a => appendstr sb s a
  | .nstr s n a => appendnstr sb s n a
  | .fmt t a => appendf sb t a
  | .clear => clear sb

/-- A sequence of calls; the list of return values. -/
def run : Sb → List Op → Option (Sb × List Int)
  | sb, [] => some (sb, [])
  | sb, op :: ops =>
    match step sb op with
    | none => none
    | some (sb, r) => (run sb ops).map fun x => (x.1, r :: x.2)

end Verif.StringBuilder
