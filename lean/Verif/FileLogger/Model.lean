import Verif.Integer.Model
import Verif.MsgHandler.Model
import Verif.Strings.Model
import Verif.TimeUtil.Model

/-!
# Model of the file logger

`/repo/src/log/file_logger.c`: a queue handler (`Verif.MsgHandler`) whose callback writes to files.

Simplifications: the results of `malloc`, `fopen`, `fprintf` and of the push are inputs; the clock is an input;
`file_util_mkdirs` (whose result is ignored, C58) only influences whether `fopen` succeeds; nobody else changes the
files; the lock callbacks are not modelled (`file_logger_log` is one step); no overflow of the 64-bit byte counter;
`strreplace` scans with enough fuel.
-/
namespace Verif.FileLogger
open MsgQueue (Code encHdr)
open MsgHandler (objLen)

/-- inc/log/file_logger.h 20-31 `file_logger_cfg` without the lock. -/
structure Cfg where
  folder : Mem
  pre : Mem
  maxLen : Nat
  queueSize : Nat
  best : Bool
  deriving DecidableEq

/-- file_logger.c 94-105: the folder path in `char[128]`; outer `none`: undefined. -/
def fixFolder (folder : Mem) (mem : Nat → Option Mem) : Option Mem := do
  let s ← folder.cstr 0
  let r ← Strings.strreplace (s.length + 1) s [92] [47] mem
  -- NULL from `strreplace` is dereferenced
  let f ← r
  let (folder, _) ← Strings.strlcpy folder f 128
  let len ← folder.strlen 0
  let last ← (if len = 0 then none else folder[len - 1]?)
  if last ≠ 47 then do
    let at_ := if len + 1 < 128 then len else len - 1
    let folder ← folder.poke at_ 47
    folder.poke (at_ + 1) 0
  else some folder

/-- file_logger.c 54-120 `file_logger_init`; the bools: the two `calloc`s; `create`: whether
`msg_queue_handler_create` succeeds for this buffer size.  Inner `none`: NULL is returned. -/
def init (c : Cfg) (a1 a2 : Bool) (create : BitVec 32 → Bool) (mem : Nat → Option Mem) : Option (Option Cfg) := do
  let len ← c.folder.strlen 0
  if len < 2 then return none
  else if c.queueSize < 2 then return none
  else if !a1 then return none
  else if !a2 then return none
  else if !create (BitVec.ofNat 32 c.queueSize * 1024#32) then return none
  else do
    let folder ← fixFolder c.folder mem
    return some { c with folder := folder, maxLen := if c.maxLen ≠ 0 ∧ c.maxLen < 64 then 0 else c.maxLen }

/-! ### Logging (122-178) -/

/-- `msg_cache_p` and `cur_msg_obj_capacity`. -/
structure Cache where
  obj : Mem
  cap : Nat
  deriving DecidableEq

/-- file_logger.c 68-69, 80-81 (`calloc`). -/
def Cache.init : Cache := ⟨List.replicate (16 + 2048) 0, 2048⟩

/-- `realloc(old, n)` that succeeds, with `junk` behind the old contents. -/
def realloc (old : Mem) (n : Nat) (junk : Mem) : Mem := (old ++ junk.drop old.length).take n

/-- file_logger.c 131-143: `none` undefined, inner `none`: out of memory. -/
def grow (k : Cache) (size : Nat) (mem : Nat → Option Mem) : Option (Option Cache) :=
  if size > k.cap then
    let n := (Integer.roundup (BitVec.ofNat 32 size)).toNat
    match mem (16 + n) with
    | none => some none
    | some junk => some (some ⟨realloc k.obj (16 + n) junk, n⟩)
  else some (some k)

/-- file_logger.c 129-158: the loop; `push` gives the results of the pushes, `fuel` counts the retries.
Result: cache, status, and the objects pushed. -/
def attempts (best : Bool) (msg : List Byte) (mem : Nat → Option Mem) (push : Nat → Code) :
    Nat → Nat → Cache → Code → List Mem → Option (Cache × Code × List Mem)
  | 0, _, k, st, out => some (k, st, out)
  | fuel + 1, i, k, st, out =>
    match grow k msg.length mem with
    | none => none
    | some none => some (k, st, out)
    | some (some k) => do
      let o ← k.obj.store 16 msg
      let o ← o.store 12 (encHdr (BitVec.ofNat 32 msg.length))
      let k : Cache := ⟨o, k.cap⟩
      let out := out ++ [o]
      let st := push i
      if st = .success then some (k, st, out)
      else if !best then some (k, st, out)
      else attempts best msg mem push fuel (i + 1) k st out

/-- `%.*s` with precision `n` (`none`: a negative one, i.e. no limit) on the object `m`. -/
def printed (m : Mem) (n : Option Nat) : Option (List Byte) :=
  match n with
  | none => m.cstr 0
  | some n =>
    let t := (m.take n).takeWhile (· ≠ 0)
    if t.length < n ∧ m.length ≤ t.length then none else some t

/-- The precision `(int)n`. -/
def prec (n : BitVec 32) : Option Nat := if n.toInt < 0 then none else some n.toNat

/-- What a call did: the returned status, the objects pushed, and what was appended to `*_lost.log`. -/
structure Logged where
  cache : Cache
  status : Code
  pushed : List Mem
  lost : Option (List Byte)

/-- file_logger.c 122-178 `file_logger_log`; `lostOk`: `fopen` of the lost file succeeds. -/
def log (best : Bool) (k : Cache) (msg : List Byte) (mem : Nat → Option Mem) (push : Nat → Code) (lostOk : Bool) :
    Option Logged := do
  let (k, st, out) ← attempts best msg mem push 2 0 k .bufNotEnough []
  if st ≠ .success ∧ best ∧ lostOk then do
    let t ← printed msg (prec (BitVec.ofNat 32 msg.length))
    return ⟨k, st, out, some (t ++ [10, 10])⟩
  else return ⟨k, st, out, none⟩

/-! ### The worker's callback (207-252) -/

/-- What the environment answers during one callback. -/
structure Env where
  sec : Int
  usec : Int
  /-- `fopen` succeeds -/
  openOk : Bool
  /-- `fprintf`: `none` success, `some n`: negative result after `n` bytes -/
  wr : Option Nat
  /-- the uninitialised arrays `cur_time` and `path_buffer` -/
  time : Mem
  path : Mem

/-- State of the worker: current file, byte counter, files; `sess` (a ghost): every successful `fopen` with its
name and what was written until it was closed. -/
structure W where
  fp : Option (List Byte)
  counter : Nat
  fs : List Byte → Option (List Byte)
  sess : List (List Byte × List Byte)

/-- `fopen(name, "wb")` that succeeds. -/
def W.create (w : W) (name : List Byte) : W :=
  { w with fp := some name, fs := fun n => if n = name then some [] else w.fs n, sess := w.sess ++ [(name, [])] }

/-- Bytes appended to the open file `name`. -/
def W.append (w : W) (name bytes : List Byte) : W :=
  { w with fs := fun n => if n = name then (w.fs n).map (· ++ bytes) else w.fs n,
           sess := w.sess.dropLast ++ (w.sess.getLast?.map fun (n, c) => (n, c ++ bytes)).toList }

/-- file_logger.c 217-222: "%s%s%s.log" into `path_buffer`. -/
def path (c : Cfg) (tz : Int) (e : Env) : Option (List Byte) := do
  let (t, _) ← TimeUtil.getTimeStr .file e.sec e.usec e.time tz
  let t ← t.cstr 0
  let f ← c.folder.cstr 0
  let p ← c.pre.cstr 0
  let b ← e.path.poke 255 0
  let (b, _) ← b.snprintf 0 255 (f ++ p ++ t ++ [46, 108, 111, 103])
  b.cstr 0

/-- file_logger.c 214-225: a file is opened if there is none. -/
def openFile (c : Cfg) (tz : Int) (w : W) (e : Env) : Option W :=
  match w.fp with
  | some _ => some w
  | none => do
    let name ← path c tz e
    let w := if e.openOk then w.create name else w
    return { w with counter := 0 }

/-- file_logger.c 207-252 `handle_log_queue_msg`. -/
def handle (c : Cfg) (tz : Int) (w : W) (e : Env) (msg : Mem) : Option W :=
  if (objLen msg).toInt < 1 then some w
  else do
    let w ← openFile c tz w e
    match w.fp with
    | none => return w
    | some name => do
      let t ← printed (msg.drop 16) (some (objLen msg).toNat)
      let line := t ++ [10]
      let w := match e.wr with
        | none => { w.append name line with counter := w.counter + line.length }
        | some n => w.append name (line.take n)
      return if c.maxLen ≠ 0 ∧ w.counter ≥ c.maxLen then { w with fp := none } else w

/-- The callback invocations in turn. -/
def handleAll (c : Cfg) (tz : Int) (w : W) : List (Env × Mem) → Option W
  | [] => some w
  | (e, m) :: l => (handle c tz w e m).bind fun w => handleAll c tz w l

/-- The worker's state after `file_logger_init`. -/
def W.init (fs : List Byte → Option (List Byte)) : W := ⟨none, 0, fs, []⟩

end Verif.FileLogger
