import Verif.Common.Strtok
/-!
# Model of src/mem/strings.c

Objects are byte lists, pointers into them offsets; every access is bounds checked and `none` means it
left its object.  `size_t` arithmetic that can wrap is done modulo 2^64 (`2 ^ 64` is written out where it
occurs).  libc's `strlen`, `strstr`, `strchr`, `memcpy`, `memmove`, `strcpy`, `strtok_r`, `snprintf` are
their contracts (`Common/CStr.lean`, `Common/Strtok.lean`, `Common/Mem.lean`).  Source and destination objects of a call
are distinct.  Loops carry fuel (running out is `none`); the theorems show it never runs out.
-/
namespace Verif.Strings

/-! ### strlcpy, strlcat -/

/-- strings.c 44-50: `while (--n != 0) { if ((*d++ = *s++) == 0) break; }` -/
def cpyLoop (src : Mem) : Nat → Mem → Nat → Nat → Nat → Option (Mem × Nat × Nat × Nat)
  | 0, _, _, _, _ => none
  | fuel + 1, dst, d, s, n =>
    let n := n - 1
    if n = 0 then some (dst, d, s, n)
    else
      match src[s]? with
      | none => none
      | some c =>
        match dst.poke d c with
        | none => none
        | some dst => if c = 0 then some (dst, d + 1, s + 1, n) else cpyLoop src fuel dst (d + 1) (s + 1) n

/-- strings.c 60: `while (*s++) ;` -/
def skipLoop (src : Mem) : Nat → Nat → Option Nat
  | 0, _ => none
  | fuel + 1, s =>
    match src[s]? with
    | none => none
    | some c => if c = 0 then some (s + 1) else skipLoop src fuel (s + 1)

/-- strings.c 42-51. -/
def cpyHead (dst src : Mem) (size : Nat) : Option (Mem × Nat × Nat × Nat) :=
  if size ≠ 0 then cpyLoop src (size + 1) dst 0 0 size else some (dst, 0, 0, size)

/-- strings.c 56-59. -/
def cpyTerm (dst : Mem) (d size : Nat) : Option Mem :=
  if size ≠ 0 then dst.poke d 0 else some dst

/-- strings.c 35-65: `strlcpy`. Result: destination object and returned value. -/
def strlcpy (dst src : Mem) (size : Nat) : Option (Mem × Nat) :=
  match cpyHead dst src size with
  | none => none
  | some (dst, d, s, n) =>
    if n = 0 then
      match cpyTerm dst d size with
      | none => none
      | some dst =>
        match skipLoop src (src.length + 1) s with
        | none => none
        | some s => some (dst, s - 1)
    else some (dst, s - 1)

/-- strings.c 75-78: `while (n-- != 0 && *d != 0) ++d;`; the final `d`. -/
def endLoop (dst : Mem) : Nat → Nat → Nat → Option Nat
  | 0, _, _ => none
  | fuel + 1, d, n =>
    if n = 0 then some d
    else
      match dst[d]? with
      | none => none
      | some c => if c = 0 then some d else endLoop dst fuel (d + 1) (n - 1)

/-- strings.c 87-95. -/
def catLoop (src : Mem) : Nat → Mem → Nat → Nat → Nat → Option (Mem × Nat × Nat)
  | 0, _, _, _, _ => none
  | fuel + 1, dst, d, s, n =>
    match src[s]? with
    | none => none
    | some c =>
      if c = 0 then some (dst, d, s)
      else if n ≠ 1 then
        match dst.poke d c with
        | none => none
        | some dst => catLoop src fuel dst (d + 1) (s + 1) (n - 1)
      else catLoop src fuel dst d (s + 1) n

/-- strings.c 67-99: `strlcat`. -/
def strlcat (dst src : Mem) (size : Nat) : Option (Mem × Nat) :=
  match endLoop dst (size + 1) 0 size with
  | none => none
  | some dlen =>
    let n := size - dlen
    if n = 0 then (src.strlen 0).map fun l => (dst, dlen + l)
    else
      match catLoop src (src.length + 1) dst dlen 0 n with
      | none => none
      | some (dst, d, s) => (dst.poke d 0).map fun dst => (dst, dlen + s)

/-! ### strreplace -/

/-- strings.c 117-120: counts; `ori` is the string at `oriptr`. -/
def countLoop (pat : List Byte) : Nat → List Byte → Nat → Option Nat
  | 0, _, _ => none
  | fuel + 1, ori, cnt =>
    match strstr pat ori with
    | none => some cnt
    | some k => countLoop pat fuel (ori.drop (k + pat.length)) (cnt + 1)

/-- strings.c 132-145: copies; `ret` is `returned`, `p` is `retptr - returned`. -/
def fillLoop (pat rep : List Byte) : Nat → List Byte → Mem → Nat → Option Mem
  | 0, _, _, _ => none
  | fuel + 1, ori, ret, p =>
    match strstr pat ori with
    | none => ret.store p (ori ++ [0])
    | some k =>
      match ret.store p (ori.take k) with
      | none => none
      | some ret =>
        match ret.store (p + k) rep with
        | none => none
        | some ret => fillLoop pat rep fuel (ori.drop (k + pat.length)) ret (p + k + rep.length)

/-- strings.c 123: `orilen + patcnt * (replen - patlen)` in `size_t`. -/
def retLen (orilen patcnt replen patlen : Nat) : Nat :=
  (orilen + patcnt * ((replen + 2 ^ 64 - patlen) % 2 ^ 64)) % 2 ^ 64

/-- strings.c 105-148: `strreplace`; arguments are the characters of the three C strings, `fuel` bounds
both loops (which need not terminate: empty pattern).  `mem` is what `malloc` returned: `none` for NULL
or the initial contents of the block.  Result: `none` = undefined behaviour or no termination within the
fuel; otherwise the returned block (`none` = NULL). -/
def strreplace (fuel : Nat) (ori pat rep : List Byte) (mem : Nat → Option Mem) : Option (Option Mem) :=
  match countLoop pat fuel ori 0 with
  | none => none
  | some cnt =>
    match mem ((retLen ori.length cnt rep.length pat.length + 1) % 2 ^ 64) with
    | none => some none
    | some ret =>
      match ret.poke 0 0 with
      | none => none
      | some ret => (fillLoop pat rep fuel ori ret 0).map some

/-! ### strsplit -/

/-- strings.c 158-164: the loop; `recv` the pointers stored so far. -/
def splitLoop (delims : List Byte) (limit : Nat) : Nat → Mem → Option Nat → Nat → List Nat →
    Option (Mem × List Nat)
  | 0, _, _, _, _ => none
  | fuel + 1, m, token, save, recv =>
    match token with
    | none => some (m, recv)
    | some t =>
      if recv.length < limit then
        match strtokR m save delims with
        | none => none
        | some (m, tok, save) => splitLoop delims limit fuel m tok save (recv ++ [t])
      else some (m, recv)

/-- strings.c 150-165: `strsplit`. Result: the source object (it is written to) and the pointers
stored (offsets into it); `*p_splited_nums` is their number. -/
def strsplit (m : Mem) (delims : List Byte) (limit : Nat) : Option (Mem × List Nat) :=
  match strtokR m 0 delims with
  | none => none
  | some (m', tok, save) => splitLoop delims limit (m.length + 1) m' tok save []

/-! ### strtrim -/

/-- strings.c 174: `while (sp <= end && strchr(cset, *sp)) sp++;` with `end = e - 1`. -/
def trimL (m : Mem) (cset : List Byte) (e : Nat) : Nat → Nat → Option Nat
  | 0, _ => none
  | fuel + 1, sp =>
    if sp < e then
      match m[sp]? with
      | none => none
      | some c => if strchrIn cset c then trimL m cset e fuel (sp + 1) else some sp
    else some sp

/-- strings.c 175: `while (ep > sp && strchr(cset, *ep)) ep--;` with `ep = q - 1`; returns the final
`q`. -/
def trimR (m : Mem) (cset : List Byte) (sp : Nat) : Nat → Nat → Option Nat
  | 0, _ => none
  | fuel + 1, q =>
    if q > sp + 1 then
      match m[q - 1]? with
      | none => none
      | some c => if strchrIn cset c then trimR m cset sp fuel (q - 1) else some q
    else some q

/-- strings.c 177. -/
def trimMove (m : Mem) (sp len : Nat) : Option Mem :=
  if len ≠ 0 ∧ sp ≠ 0 then
    match m.load sp len with
    | none => none
    | some bs => m.store 0 bs
  else some m

/-- strings.c 167-179: `strtrim`.  Pointers are kept one past (`end = e - 1`, `ep = q - 1`), so that
`s - 1` for an empty string is the offset 0 here. -/
def strtrim (m : Mem) (cset : List Byte) : Option Mem :=
  match m.strlen 0 with
  | none => none
  | some e =>
    match trimL m cset e (e + 1) 0 with
    | none => none
    | some sp =>
      match trimR m cset sp (e + 1) e with
      | none => none
      | some q =>
        let len := q - sp   -- `(sp > ep) ? 0 : (ep - sp) + 1`, as `sp > ep` iff `q ≤ sp`
        match trimMove m sp len with
        | none => none
        | some m => m.poke len 0

/-! ### UTF-8 length -/

/-- strings.c 190-195. -/
def utf8Loop (m : Mem) (max : Nat) : Nat → Nat → Nat → Option Nat
  | 0, _, _ => none
  | fuel + 1, i, cps =>
    match m[i]? with
    | none => none
    | some c =>
      if c ≠ 0 ∧ i < max then
        utf8Loop m max fuel (i + 1) (cps + if (c &&& 0xC0) ≠ 0x80 then 1 else 0)
      else some cps

/-- strings.c 186-197: `strnutf8len`. -/
def strnutf8len (m : Mem) (max : Nat) : Option Nat := utf8Loop m max (m.length + 1) 0 0

/-- strings.c 181-184: `strutf8len`. -/
def strutf8len (m : Mem) : Option Nat :=
  match m.strlen 0 with
  | none => none
  | some l => strnutf8len m l

/-! ### str_char2hex -/

/-- Lower-case hexadecimal digit as printed by `%02x`. -/
def lowHex (v : Nat) : Byte := UInt8.ofNat (if v < 10 then 48 + v else 87 + v)

/-- The text `" %02x"` for an unsigned char. -/
def hexText (c : Byte) : List Byte := [32, lowHex (c.toNat / 16), lowHex (c.toNat % 16)]

/-- Decimal digits as printed by `%zu`. -/
def decText (n : Nat) : List Byte := (Nat.toDigits 10 n).map fun c => UInt8.ofNat c.toNat

/-- `"hex truncated(%zu):"` -/
def truncText (n : Nat) : List Byte :=
  [104, 101, 120, 32, 116, 114, 117, 110, 99, 97, 116, 101, 100, 40] ++ decText n ++ [41, 58]

/-- strings.c 214: the size argument `hex_str_capacity - len_hex_str - 1` in `size_t` arithmetic. -/
def hexLim (cap len : Nat) : Nat :=
  if len + 1 ≤ cap then cap - len - 1 else 2 ^ 64 - (len + 1 - cap)

/-- strings.c 213-214: one `snprintf(hex_str + len, lim, " %02x", chars[i])`. -/
def hexPut (cap : Nat) (chars : Mem) (i len : Nat) (out : Mem) : Option (Mem × Nat) :=
  match chars[i]? with
  | none => none
  | some c => out.snprintf len (hexLim cap len) (hexText c)

/-- strings.c 211-221: the loop from `chars_index = i`, with `len_hex_str = len`. -/
def hexLoop (cap : Nat) (chars : Mem) (count : Nat) : Nat → Nat → Nat → Mem → Option (Mem × Nat)
  | 0, _, _, _ => none
  | fuel + 1, i, len, out =>
    if i < count then
      match hexPut cap chars i len out with
      | none => none
      | some (out, r) =>
        if r = 3 then hexLoop cap chars count fuel (i + 1) (len + r) out else some (out, len)
    else some (out, len)

/-- strings.c 206-210. Result: object, `len_hex_str`, `chars_count`. -/
def hexHead (out : Mem) (cap count : Nat) : Option (Mem × Nat × Nat) :=
  if count * 3 % 2 ^ 64 ≥ cap then
    match out.snprintf 0 ((cap + 2 ^ 64 - 1) % 2 ^ 64) (truncText count) with
    | none => none
    | some (out, r) => some (out, r, (cap / 3 + 2 ^ 64 - 1) % 2 ^ 64)
  else some (out, 0, count)

/-- strings.c 199-223: `str_char2hex`. -/
def char2hex (out : Mem) (cap : Nat) (chars : Mem) (count : Nat) : Option (Mem × Nat) :=
  match out.poke 0 0 with
  | none => none
  | some out =>
    match hexHead out cap count with
    | none => none
    | some (out, len, count) => hexLoop cap chars count (chars.length + 2) 0 len out

/-! ### strndup (Windows) -/

/-- strings.c 5-30: `strndup` on Windows, non-NULL argument; `mem` as in `strreplace`. -/
def strndup (src : Mem) (n : Nat) (mem : Nat → Option Mem) : Option (Option Mem) :=
  let t := (src.take n).takeWhile (· ≠ 0)
  if t.length < n ∧ src.length ≤ t.length then none   -- `strnlen` would read past the object
  else
    match mem (t.length + 1) with
    | none => some none
    | some blk =>
      match blk.store 0 t with
      | none => none
      | some blk => (blk.poke t.length 0).map some

end Verif.Strings
