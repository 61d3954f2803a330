import Verif.Strings.Model
import Verif.TimeUtil.Model

/-!
# Model of xlog

`/repo/src/log/xlog.c`, built for a platform other than Android.

`printf`/`vsnprintf` are represented by the bytes they produce (`Call.text`, `none` for a negative
result).  `time_util_get_time_str_current` is the uncached `time_util_get_time_str` at the current
time: C50 shows that the cache makes no difference.  The output is a list of events.

Simplifications: the mutex exists (`xlog_global_init` has been called), so the part of a call under
the lock is one step; redirection of stdout (144-182) is not modelled; integers below the limits
of `int` (text lengths below 2^31).
-/
namespace Verif.Xlog

/-- xlog.c 32-65 `xlog_config_t`. -/
structure Cfg where
  minLevel : Nat
  trigger : Nat
  tag : Mem
  /-- a callback is set -/
  cb : Bool
  target : Nat
  format : Nat
  flush : Nat
  zone : Int
  console : Bool
  usercb : Bool
  fTs : Bool
  fTag : Bool
  fTid : Bool
  deriving DecidableEq

/-- xlog.c 68-97 `g_xlog_cfg`: "XLog". -/
def Cfg.init : Cfg :=
  { minLevel := 1, trigger := 0, tag := [88, 76, 111, 103] ++ List.replicate 20 0, cb := false, target := 4,
    format := 6, flush := 0, zone := 8, console := true, usercb := false, fTs := true, fTag := true, fTid := false }

/-! ### Setters (188-288) -/

/-- The configuring calls of the API. -/
inductive Set where
  | autoLevelUp (l : Nat)
  | defaultTag (t : Option Mem)
  | timezone (h : Int)
  | callback (f : Bool)
  | target (t : Int)
  | minLevel (l : Int)
  | format (f : Int)
  | flushMode (m : Int)

/-- xlog.c 188-288. -/
def Cfg.set (c : Cfg) : Set → Option Cfg
  | .autoLevelUp l => some { c with trigger := l }
  | .defaultTag none => some c
  | .defaultTag (some t) => (Strings.strlcpy c.tag t 24).map fun r => { c with tag := r.1 }
  | .timezone h => some (if h > 12 ∨ h < -12 then c else { c with zone := h })
  | .callback f => some { c with cb := f }
  | .target t =>
    some (if t < 0 then c else
      { c with target := t.toNat, console := (t.toNat &&& 4) ≠ 0, usercb := (t.toNat &&& 8) ≠ 0 })
  | .minLevel l => some (if l < 0 ∨ l > 5 then c else { c with minLevel := l.toNat })
  | .format f =>
    some (if f < 0 then c else
      { c with format := f.toNat, fTs := (f.toNat &&& 2) ≠ 0, fTag := (f.toNat &&& 4) ≠ 0, fTid := (f.toNat &&& 8) ≠ 0 })
  | .flushMode m => some (if m < 0 then c else { c with flush := m.toNat })

/-- xlog.c 109 `XLOG_IS_LEVEL_LOGABLE`. -/
def logable (c : Cfg) (level : Nat) : Bool := c.target ≠ 0 ∧ c.minLevel ≠ 0 ∧ level < 6 ∧ level ≥ c.minLevel

/-- xlog.c 111 `g_map_level_chars`. -/
def levelChars : List Byte := [48, 86, 68, 73, 87, 69, 63]

/-! ### The header (304-479) -/

/-- xlog.c 324-327: the loop copying and padding the tag. -/
def tagLoop (tag : Mem) (cpy align : Nat) : Nat → Nat → Mem → Nat → Option Mem
  | 0, _, _, _ => none
  | fuel + 1, i, m, off =>
    if i < align then do
      let ch ← (if i < cpy then tag[i]? else some 32)
      let m ← m.poke off ch
      tagLoop tag cpy align fuel (i + 1) m (off + 1)
    else some m

/-- xlog.c 304-341 `print_level_tag` at `buffer + off`. -/
def printLevelTag (m : Mem) (off level : Nat) (tag : Mem) : Option (Mem × Nat) := do
  let m ← m.poke off 32
  let ch ← levelChars[level]?
  let m ← m.poke (off + 1) ch
  let m ← m.poke (off + 2) 47
  let len ← tag.strlen 0
  let cpy := if len > 22 then 22 else len
  let align := if cpy < 8 then 8 else cpy
  let m ← tagLoop tag cpy align (align + 1) 0 m (off + 3)
  let m ← m.poke (off + 3 + align) 0
  return (m, 3 + align)

/-- xlog.c 353-356: the digits of the thread id, from `num_count` downwards; result `num_count`. -/
def tidLoop (m : Mem) (off : Nat) : Nat → Nat → Option (Mem × Nat)
  | 0, _ => some (m, 0)
  | n + 1, tid =>
    if tid > 0 then do
      let m ← m.poke (off + n) (UInt8.ofNat (48 + tid % 10))
      tidLoop m off n (tid / 10)
    else some (m, n + 1)

/-- xlog.c 343-365 `print_tid`; the negation of `INT_MIN` is undefined. -/
def printTid (m : Mem) (off : Nat) (tid : Int) : Option (Mem × Nat) := do
  let tid ← (if tid < 0 then (if tid = -2147483648 then none else some (-tid)) else some tid)
  let m ← m.poke off 40
  let (m, n) ← tidLoop m (off + 1) 5 tid.toNat
  let m ← m.store (off + 1) (List.replicate n 32)
  let m ← m.poke (off + 6) 41
  let m ← m.poke (off + 7) 0
  return (m, 7)

/-- xlog.c 375-379: the digits, lowest first; result: object and `len_str`. -/
def digitLoop : Nat → Mem → Nat → Nat → Nat → Option (Mem × Nat)
  | 0, _, _, _, _ => none
  | fuel + 1, m, off, len, num => do
    let m ← m.poke (off + len) (UInt8.ofNat (num % 10 + 48))
    if num / 10 ≠ 0 then digitLoop fuel m off (len + 1) (num / 10) else some (m, len + 1)

/-- xlog.c 388-393: reversing by additions and subtractions of characters. -/
def swapLoop : Nat → Mem → Nat → Nat → Nat → Option Mem
  | 0, _, _, _, _ => none
  | fuel + 1, m, off, len, i =>
    if i < len / 2 then do
      let a ← m[off + i]?
      let b ← m[off + (len - 1 - i)]?
      let m ← m.poke (off + i) (a + b)
      let a ← m[off + i]?
      let b ← m[off + (len - 1 - i)]?
      let m ← m.poke (off + (len - 1 - i)) (a - b)
      let a ← m[off + i]?
      let b ← m[off + (len - 1 - i)]?
      let m ← m.poke (off + i) (a - b)
      swapLoop fuel m off len (i + 1)
    else some m

/-- xlog.c 367-395 `my_int2str` for a number that is not negative (its only caller passes
`file_line > 0`, 481). -/
def int2str (m : Mem) (off num : Nat) : Option (Mem × Nat) := do
  let (m, len) ← digitLoop (num + 1) m off 0 num
  let m ← m.poke (off + len) 0
  let m ← swapLoop (len + 1) m off len 0
  return (m, len)

/-- xlog.c 398-414 `print_func_line`. -/
def printFuncLine (m : Mem) (off : Nat) (func : Mem) (line : Nat) : Option (Mem × Nat) := do
  let m ← m.poke off 40
  let f ← func.cstr 0
  let m ← m.store (off + 1) f
  let m ← m.poke (off + 1 + f.length) 58
  let (m, n) ← int2str m (off + 2 + f.length) line
  let m ← m.poke (off + 2 + f.length + n) 41
  let m ← m.poke (off + 2 + f.length + n + 1) 32
  let m ← m.poke (off + 2 + f.length + n + 2) 0
  return (m, 2 + f.length + n + 2)

/-! ### The call -/

/-- What the environment answers: the time, the thread id, `malloc`. -/
structure Env where
  sec : Int
  usec : Int
  tid : Int
  alloc : Nat → Option Mem

/-- The arguments of `__xlog_internal_print`; `text` is what the format produces. -/
structure Call where
  level : Nat
  tag : Option Mem
  func : Option Mem
  line : Int
  text : Option (List Byte)

/-- Observable events. -/
inductive Ev where
  | console (s : List Byte)
  | flush
  | callback (level : Nat) (bytes : List Byte) (size : Nat)
  /-- a line on stderr -/
  | failure
  | malloc (n : Nat)
  | free
  deriving DecidableEq

/-- xlog.c 448-479: the header; result: buffer and `header_len`. -/
def header (c : Cfg) (e : Env) (level : Nat) (tag : Mem) (m : Mem) : Option (Mem × Nat) :=
  if c.format ≠ 0 ∧ (c.console ∨ c.usercb) then do
    let (m, h) ← (if c.fTs then (TimeUtil.getTimeStr .stamp e.sec e.usec m c.zone).map fun r => (r.1, r.2.toNat) else some (m, 0))
    let (m, h) ← (if c.fTag then (printLevelTag m h level tag).map fun r => (r.1, h + r.2) else some (m, h))
    let (m, h) ← (if c.fTid then (printTid m h e.tid).map fun r => (r.1, h + r.2) else some (m, h))
    if h ≠ 0 then do
      let m ← m.poke h 58
      let m ← m.poke (h + 1) 32
      let m ← m.poke (h + 2) 0
      return (m, h + 2)
    else return (m, h)
  else some (m, 0)

/-- xlog.c 481-489: function and line; `buffer_log_size - buffer_strlen - 1` in `size_t`. -/
def trace (k : Call) (m : Mem) (len : Nat) : Option (Mem × Nat) :=
  match k.func with
  | none => some (m, len)
  | some f =>
    if k.line > 0 ∧ (512 - len - 1) > 32 then (printFuncLine m len f k.line.toNat).map fun r => (r.1, len + r.2)
    else some (m, len)

/-- xlog.c 531-543: the targets. -/
def deliver (c : Cfg) (level : Nat) (m : Mem) (len : Nat) : Option (List Ev) := do
  let a ← (if c.console then (m.cstr 0).map fun s => .console (s ++ [10]) :: (if c.flush ≠ 0 then [.flush] else []) else some [])
  let b ← (if c.usercb ∧ c.cb then (m.load 0 (len + 1)).map fun s => [Ev.callback level s (len + 1)] else some [])
  return a ++ b

/-- xlog.c 435-550: the part under the lock, and the final `free`. -/
def emit (c : Cfg) (e : Env) (k : Call) : Option (List Ev) := do
  let level := if c.trigger ≠ 0 ∧ k.level < c.trigger then c.trigger else k.level
  let tag := k.tag.getD c.tag
  let (m, h) ← header c e level tag (List.replicate 512 0)
  let (m, len) ← trace k m h
  let rem := 512 - len
  match k.text with
  | none => return [.failure]
  | some t => do
    let (m, r) ← m.snprintf len rem t
    if r < rem then deliver c level m (len + r)
    else
      match e.alloc (len + (r + 1)) with
      | none => return [.malloc (len + (r + 1)), .failure, .free]
      | some b => do
        let (b, _) ← Strings.strlcpy b m (len + 1)
        let (b, r) ← b.snprintf len (r + 1) t
        let evs ← deliver c level b (len + r)
        return .malloc (len + (r + 1)) :: (evs ++ [.free])

/-- xlog.c 419-551 `__xlog_internal_print`: the test without the lock sees `c0`, the part under the
lock `c`. -/
def print (c0 c : Cfg) (e : Env) (k : Call) : Option (List Ev) :=
  if logable c0 k.level then emit c e k else some []

/-- xlog.c 556-565 `__xlog_internal_hex_print`; `junk` is the uninitialised array. -/
def hexPrint (c0 c1 c : Cfg) (e : Env) (level : Nat) (tag : Option Mem) (chars : Mem) (count : Nat) (junk : Mem) :
    Option (List Ev) :=
  if logable c0 level then do
    let (hex, _) ← Strings.char2hex junk 512 chars count
    let s ← hex.cstr 0
    print c1 c e { level := level, tag := tag, func := none, line := -1, text := some s }
  else some []

end Verif.Xlog
