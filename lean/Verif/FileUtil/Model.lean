import Verif.Common.CStr
/-!
# Model of `/repo/src/file/file_util.c`

The operating system and the C stream library are parameters: `read`/`write` return an arbitrary count
allowed by POSIX, `access`/`mkdir` are arbitrary functions on an arbitrary file-system state, `malloc` and
`fread` may fail.  `none` is undefined behaviour.  Not modelled here: `file_util_access`, `file_util_get_size_by_*` (see
`Verif.FileSize`), NULL arguments.
-/
namespace Verif.FileUtil

/-! ### `file_util_append_slash_on_path_if_needed` -/

/-- `strnlen(m, n)`. -/
def strnlen : List Byte → Nat → Option Nat
  | _, 0 => some 0
  | [], _ + 1 => none
  | c :: m, n + 1 => if c = 0 then some 0 else (strnlen m n).map (· + 1)

/-- file_util.c 38-41: drop trailing spaces. -/
def trimLen (m : Mem) : Nat → Option Nat
  | 0 => some 0
  | n + 1 => do
    let c ← m[n]?
    if c = 32 then trimLen m n else some (n + 1)

/-- file_util.c 31-56: the object `m` at `folder_path` afterwards and the result. -/
def appendSlash (m : Mem) (size : Nat) : Option (Mem × Int) := do
  let c0 ← m[0]?
  if c0 = 0 ∨ size < 3 then return (m, -1)
  else
    let n ← strnlen m size
    let n ← trimLen m n
    if n < 1 then return (m, -2)
    else
      let t ← m.cstr 0
      let slash : Byte := if (strstr [92] t).isSome then 92 else 47
      let last ← m[n - 1]?
      if last = slash then return (m, 0)
      else
        let loc := if n + 1 < size then n else n - 1
        let m ← m.store loc [slash]
        let m ← m.store (loc + 1) [0]
        return (m, 0)

/-! ### `file_util_mkdirs` -/

/-- `access(path, 0) == 0` and `mkdir(path, ..)` on a file system with states `σ`. -/
structure Fs (σ : Type) where
  access : σ → List Byte → Bool
  mkdir : σ → List Byte → σ × Int

/-- file_util.c 79-97: the loop; the list is the rest of `folder_path` from index `i` on. -/
def mkdirsLoop {σ : Type} (fs : Fs σ) (s : σ) (tmp : Mem) (i : Nat) : List Byte → Option (σ × Int)
  | [] => some (s, 0)
  | c :: rest => do
    let tmp ← tmp.store i [c]
    if c ≠ 92 ∧ c ≠ 47 then mkdirsLoop fs s tmp (i + 1) rest
    else
      let p ← tmp.cstr 0
      if fs.access s p then mkdirsLoop fs s tmp (i + 1) rest
      else
        let r := fs.mkdir s p
        if r.2 ≠ 0 then return r
        else mkdirsLoop fs r.1 tmp (i + 1) rest

/-- file_util.c 66-99 `file_util_mkdirs(path)` (13: `MAX_FOLDER_PATH_LEN`). -/
def mkdirs {σ : Type} (fs : Fs σ) (s : σ) (path : List Byte) : Option (σ × Int) :=
  if path.length > 256 then some (s, -2)
  else mkdirsLoop fs s (List.replicate 256 0) 0 path

/-! ### `file_util_read`, `file_util_write` -/

/-- Conversion of an `ssize_t` to `int`. -/
def toInt (r : Int) : Int := (r + 2 ^ 31) % 2 ^ 32 - 2 ^ 31

/-- Subtraction of `size_t`. -/
def sizeSub (a b : Nat) : Nat := (a + 2 ^ 64 - b) % 2 ^ 64

/-- `INT_MAX`. -/
def intMax : Nat := 2 ^ 31 - 1

/-- A system call transferring between a device and the object `m` at `m + off`, at most `count` bytes. -/
abbrev Call (σ : Type) := σ → Mem → (off count : Nat) → Option (σ × Mem × Int)

/-- file_util.c 143-153: the loop; it makes at least one call.  Every call that does not end the loop moves at
least one byte, so `fuel` (more than `max`) is never used up. -/
def rwLoop {σ : Type} (call : Call σ) (max : Nat) : (fuel : Nat) → σ → Mem → (cur : Nat) → Option (σ × Mem × Nat)
  | 0, _, _, _ => none
  | fuel + 1, s, m, cur => do
    let (s, m, r) ← call s m cur (sizeSub max cur)
    let once := toInt r
    if once < 1 then return (s, m, cur)
    else if cur + once.toNat > intMax then none
    else
      let cur := cur + once.toNat
      if cur ≠ max then rwLoop call max fuel s m cur else return (s, m, cur)

/-- file_util.c 140-154 `pri_internal_rw_file`. -/
def rwFile {σ : Type} (call : Call σ) (s : σ) (m : Mem) (max : Nat) : Option (σ × Mem × Nat) :=
  rwLoop call max (max + 1) s m 0

/-- A file being written: its contents and the number of `write` calls so far. -/
structure Out where
  data : List Byte
  calls : Nat

/-- `write(fd, m + off, count)`: what the system wants to do in its `i`-th call is `sched i` (negative: fail
with -1; else a count, of which at most `count` is done). -/
def osWrite (sched : Nat → Int) : Call Out := fun s m off count =>
  let r : Int := if sched s.calls < 0 then -1 else min (sched s.calls) count
  (m.load off r.toNat).map fun bs => ({ data := s.data ++ bs, calls := s.calls + 1 }, m, r)

/-- A file being read: what is still to be read and the number of `read` calls so far. -/
structure Inp where
  data : List Byte
  calls : Nat

/-- `read(fd, m + off, count)`. -/
def osRead (sched : Nat → Int) : Call Inp := fun s m off count =>
  let r : Int := if sched s.calls < 0 then -1 else min (sched s.calls) (min count s.data.length)
  (m.store off (s.data.take r.toNat)).map fun m => ({ data := s.data.drop r.toNat, calls := s.calls + 1 }, m, r)

/-- file_util.c 135-138 `file_util_write`. -/
def write (sched : Nat → Int) (s : Out) (m : Mem) (max : Nat) : Option (Out × Mem × Nat) :=
  rwFile (osWrite sched) s m max

/-- file_util.c 130-133 `file_util_read`. -/
def read (sched : Nat → Int) (s : Inp) (m : Mem) (max : Nat) : Option (Inp × Mem × Nat) :=
  rwFile (osRead sched) s m max

/-! ### `file_util_read_txt` -/

/-- `isspace` in the "C" locale (for a negative `char`, i.e. a byte above 127, the call is undefined by ISO
C; it is 0 in glibc and so here). -/
def isSpace (c : Byte) : Bool := c == 32 || (9 ≤ c && c ≤ 13)

/-- `fgets(buf, 1024, fp)` with `data` still to be read: inner `none`: NULL. -/
def fgets (buf : Mem) (data : List Byte) : Option (Option (Mem × List Byte)) :=
  if data = [] then some none
  else
    let n := min 1023 (min (data.idxOf 10 + 1) data.length)
    (buf.store 0 (data.take n ++ [0])).map fun buf => some (buf, data.drop n)

/-- file_util.c 182-185: `p` after the loop, reading from the rest of the object. -/
def skipBlank : List Byte → Nat → Option Nat
  | [], _ => none
  | c :: m, p => if c ≠ 0 ∧ isSpace c then skipBlank m (p + 1) else some p

/-- file_util.c 177-180: step back over a carriage return. -/
def backCr (buf : Mem) (p : Nat) : Option Nat :=
  if p > 0 then (buf[p - 1]?).map fun c => if c = 13 then p - 1 else p else some p

/-- file_util.c 173-186: the buffer afterwards and the offset of the text; inner `none`: blank line. -/
def lineText (buf : Mem) : Option (Mem × Option Nat) := do
  let t ← buf.cstr 0
  let p := t.idxOf 10
  let p ← backCr buf p
  let buf ← buf.store p [0]
  let q ← skipBlank buf 0
  let c ← buf[q]?
  return (buf, if c = 0 then none else some q)

/-- file_util.c 171-196: the loop; every iteration consumes at least one byte of the file. -/
def readTxtLoop {σ : Type} (h : σ → Nat → List Byte → σ × Int) : (fuel : Nat) → σ → Mem → List Byte → (num : Nat) →
    Option (σ × Int)
  | 0, _, _, _, _ => none
  | fuel + 1, u, buf, data, num => do
    let r ← fgets buf data
    match r with
    | none => return (u, 0)
    | some (buf, data) =>
      let (buf, p) ← lineText buf
      match p with
      | none => readTxtLoop h fuel u buf data (num + 1)
      | some p =>
        let t ← buf.cstr p
        let r := h u num t
        if r.2 ≠ 0 then return r else readTxtLoop h fuel r.1 buf data (num + 1)

/-- file_util.c 156-199 `file_util_read_txt`: `file = none`: it cannot be opened; `garbage` is the
uninitialised buffer. -/
def readTxt {σ : Type} (h : σ → Nat → List Byte → σ × Int) (u : σ) (file : Option (List Byte)) (garbage : Mem) :
    Option (σ × Int) :=
  match file with
  | none => some (u, -1)
  | some data => readTxtLoop h (data.length + 1) u garbage data 0

/-! ### `file_util_read_all` -/

/-- file_util.c 201-255 `file_util_read_all` (arguments not NULL, `path` not empty): `file = none`: cannot be
opened; `alloc`: bytes found in the memory returned by `malloc` (`none`: NULL); `fread` transfers `got`
bytes (all of them if it can).  Result: `*out_alloced_file_data`, `*out_file_byte_len`, return value. -/
def readAll (file : Option (List Byte)) (alloc : Option (Nat → Byte)) (got : Nat) : Option (Option Mem × Int × Int) :=
  match file with
  | none => some (none, -1, -2)
  | some data =>
    let len := toInt data.length
    if data.length < 1 then some (none, len, -3)
    else
      match alloc with
      | none => some (none, len, -4)
      | some g => do
        let mem : Mem := (List.range (data.length + 1)).map g
        let mem ← mem.store data.length [0]
        let n := min got data.length
        let mem ← mem.store 0 (data.take n)
        if data.length ≠ n then return (none, len, -5) else return (some mem, len, 0)

end Verif.FileUtil
