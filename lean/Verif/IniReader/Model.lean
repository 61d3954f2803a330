import Verif.Common.CStr
/-!
# Model of `/repo/src/file/ini_reader.c` (inih)

Configuration (`/repo/inc/file/ini_reader.h` 97-172, the defaults): line buffer on the stack
(`INI_USE_STACK 1`) of `INI_MAX_LINE 200` bytes, multi-line entries, BOM, inline comments `;`,
start-of-line comments `;#`, keys without value allowed, no stop on the first error, no handler call on
a new section, no line number passed to the handler.

Every buffer (`line`, `section`, `prev_name`, the parsed string) is a byte object; reading or writing
outside of it is `none`.  `isspace` is that of the "C" locale.  `lineno` is a natural number (no
wrap-around of the C `int` after 2^31 - 1 lines).  The handler is an arbitrary function of the user's
state and the three strings (it only gets `const char*`).
-/
namespace Verif.IniReader

/-- `isspace((unsigned char)c)` in the "C" locale. -/
def isSpace (c : Byte) : Bool := c == 32 || (9 ≤ c && c ≤ 13)

/-- ini_reader.c 51-52: the loop of `ini_rstrip`; `k` is `p - s`. -/
def rstripLoop (m : Mem) (s : Nat) : Nat → Option Mem
  | 0 => some m
  | k + 1 => do
    let c ← m[s + k]?
    if isSpace c then
      let m ← m.store (s + k) [0]
      rstripLoop m s k
    else some m

/-- ini_reader.c 48-54 `ini_rstrip(m + s)`. -/
def rstrip (m : Mem) (s : Nat) : Option Mem := do
  let n ← m.strlen s
  rstripLoop m s n

/-- ini_reader.c 59-60: the loop of `ini_lskip`, reading from the rest of the object. -/
def lskipLoop : List Byte → Nat → Option Nat
  | [], _ => none
  | c :: rest, s => if c ≠ 0 ∧ isSpace c then lskipLoop rest (s + 1) else some s

/-- ini_reader.c 57-62 `ini_lskip(m + s)`: the offset of the first non-blank character. -/
def lskip (m : Mem) (s : Nat) : Option Nat := lskipLoop (m.drop s) s

/-- ini_reader.c 71-75: the loop of `ini_find_chars_or_comment`.  `chars = none` is the null pointer.
(`strchr` also matches the terminating NUL, but `*s` is tested first.) -/
def findLoop (chars : Option (List Byte)) : List Byte → Nat → Bool → Option Nat
  | [], _, _ => none
  | c :: rest, s, wasSpace =>
    if c ≠ 0 ∧ (chars.all fun cs => !strchrIn cs c) ∧ ¬ (wasSpace ∧ strchrIn [59] c) then
      findLoop chars rest (s + 1) (isSpace c)
    else some s

/-- ini_reader.c 67-82 `ini_find_chars_or_comment(m + s, chars)`. -/
def findChars (m : Mem) (s : Nat) (chars : Option (List Byte)) : Option Nat :=
  findLoop chars (m.drop s) s false

/-- ini_reader.c 90-91: the loop of `ini_strncpy0`; `n` is `size - 1 - i`.  Returns `dest` and `i`. -/
def strncpy0Loop (dest src : Mem) (p : Nat) : Nat → Nat → Option (Mem × Nat)
  | 0, i => some (dest, i)
  | n + 1, i => do
    let c ← src[p + i]?
    if c ≠ 0 then
      let dest ← dest.store i [c]
      strncpy0Loop dest src p n (i + 1)
    else some (dest, i)

/-- ini_reader.c 176-177, 212-213: `if (*end) *end = '\0';` -/
def cut (m : Mem) (e : Nat) : Option Mem := do
  let c ← m[e]?
  if c ≠ 0 then m.store e [0] else some m

/-- ini_reader.c 86-94 `ini_strncpy0(dest, src + p, size)`. -/
def strncpy0 (dest src : Mem) (p size : Nat) : Option Mem := do
  let (dest, i) ← strncpy0Loop dest src p (size - 1) 0
  dest.store i [0]

/-- ini_reader.h 48-51: the user's handler: new user state, and whether it returned non-zero. -/
abbrev Handler (σ : Type) := σ → List Byte → List Byte → Option (List Byte) → σ × Bool

/-- The local variables of `ini_reader_parse_stream` (ini_reader.c 102-120) and the user's state. -/
structure St (σ : Type) where
  line : Mem
  sec : Mem
  prev : Mem
  lineno : Nat
  error : Nat
  user : σ

/-- ini_reader.c 182-183, 220-221, 228-229: call the handler, note the first line in error. -/
def St.call {σ : Type} (st : St σ) (h : Handler σ) (name : List Byte) (value : Option (List Byte)) :
    Option (St σ) := do
  let s ← st.sec.cstr 0
  let r := h st.user s name value
  return { st with user := r.1, error := if !r.2 ∧ st.error = 0 then st.lineno else st.error }

/-- ini_reader.c 173-184: a continuation line. -/
def contLine {σ : Type} (h : Handler σ) (st : St σ) (start : Nat) : Option (St σ) := do
  let e ← findChars st.line start none
  let line ← cut st.line e
  let line ← rstrip line start
  let name ← st.prev.cstr 0
  let value ← line.cstr start
  { st with line := line }.call h name (some value)

/-- ini_reader.c 186-202: a line beginning with `[`. -/
def secLine {σ : Type} (st : St σ) (start : Nat) : Option (St σ) := do
  let e ← findChars st.line (start + 1) (some [93])
  let c ← st.line[e]?
  if c = 93 then
    let line ← st.line.store e [0]
    let sec ← strncpy0 st.sec line (start + 1) 50
    let prev ← st.prev.store 0 [0]
    return { st with line := line, sec := sec, prev := prev }
  else return { st with error := if st.error = 0 then st.lineno else st.error }

/-- ini_reader.c 203-234: a `name[=:]value` line or a name without value. -/
def nameLine {σ : Type} (h : Handler σ) (st : St σ) (start : Nat) : Option (St σ) := do
  let e ← findChars st.line start (some [61, 58])
  let c ← st.line[e]?
  if c = 61 ∨ c = 58 then
    let line ← st.line.store e [0]
    let line ← rstrip line start
    let e2 ← findChars line (e + 1) none
    let line ← cut line e2
    let value ← lskip line (e + 1)
    let line ← rstrip line value
    let prev ← strncpy0 st.prev line start 50
    let name ← line.cstr start
    let v ← line.cstr value
    { st with line := line, prev := prev }.call h name (some v)
  else if st.error = 0 then
    let line ← st.line.store e [0]
    let line ← rstrip line start
    let name ← line.cstr start
    { st with line := line }.call h name none
  else return st

/-- ini_reader.c 160-166: skip the byte order mark on the first line. -/
def bomStart (line : Mem) (lineno : Nat) : Option Nat := do
  let c0 ← line[0]?
  if lineno = 1 ∧ c0 = 0xEF then
    let c1 ← line[1]?
    if c1 = 0xBB then
      let c2 ← line[2]?
      return if c2 = 0xBF then 3 else 0
    else return 0
  else return 0

/-- ini_reader.c 157-234: what is done with one line (already in `line`). -/
def handleLine {σ : Type} (h : Handler σ) (st : St σ) : Option (St σ) := do
  let st := { st with lineno := st.lineno + 1 }
  let s0 ← bomStart st.line st.lineno
  let line ← rstrip st.line s0
  let start ← lskip line s0
  let st := { st with line := line }
  let c ← line[start]?
  let p ← st.prev[0]?
  if strchrIn [59, 35] c then return st
  else if p ≠ 0 ∧ c ≠ 0 ∧ start > 0 then contLine h st start
  else if c = 91 then secLine st start
  else if c ≠ 0 then nameLine h st start
  else return st

/-- ini_reader.c 42-45: the string reader's position. -/
structure Ctx where
  ptr : Nat
  left : Nat

/-- ini_reader.c 281-288: the loop of `ini_reader_string`. -/
def readLoop (src : Mem) : (num : Nat) → Mem → Nat → Ctx → Option (Mem × Nat × Ctx)
  | 0, str, sp, ctx => some (str, sp, ctx)
  | num + 1, str, sp, ctx =>
    if num + 1 > 1 ∧ ctx.left ≠ 0 then do
      let c ← src[ctx.ptr]?
      let str ← str.store sp [c]
      let ctx := { ptr := ctx.ptr + 1, left := ctx.left - 1 }
      if c = 10 then return (str, sp + 1, ctx)
      else readLoop src num str (sp + 1) ctx
    else some (str, sp, ctx)

/-- ini_reader.c 271-294 `ini_reader_string(str, num, ctx)`; the inner `none` is the NULL result. -/
def readString (src str : Mem) (num : Nat) (ctx : Ctx) : Option (Option (Mem × Ctx)) :=
  if ctx.left = 0 ∨ num < 2 then some none
  else do
    let (str, sp, ctx) ← readLoop src num str 0 ctx
    let str ← str.store sp [0]
    return some (str, ctx)

/-- ini_reader.c 136-240: the main loop, reading with `ini_reader_string`.  Every iteration consumes at
least one byte of the string, so `fuel` (more than the length of the string) is never used up. -/
def streamLoop {σ : Type} (h : Handler σ) (src : Mem) : (fuel : Nat) → Ctx → St σ → Option (St σ)
  | 0, _, _ => none
  | fuel + 1, ctx, st => do
    let r ← readString src st.line 200 ctx
    match r with
    | none => some st
    | some (line, ctx) =>
      let st ← handleLine h { st with line := line }
      streamLoop h src fuel ctx st

/-- ini_reader.c 297-304 `ini_reader_parse_string` with 97-120 and 246 of `ini_reader_parse_stream`:
`src` is the object holding the string, `garbage` the (uninitialised) stack buffer `line`.  `section` and
`prev_name` are zero-initialised (112-113).  Result: the returned error and the user's state. -/
def parseString {σ : Type} (h : Handler σ) (src garbage : Mem) (user : σ) : Option (Nat × σ) := do
  let n ← src.strlen 0
  let st ← streamLoop h src (n + 1) { ptr := 0, left := n }
    { line := garbage, sec := List.replicate 50 0, prev := List.replicate 50 0, lineno := 0, error := 0,
      user := user }
  return (st.error, st.user)

end Verif.IniReader
