import Verif.Dirent.Spec

/-!
# Model of the directory streams of `/repo/inc/sys/dirent_windows.h`

Blocks and search handles are numbers; using one that is not there, reading or writing outside an array and calling a Windows
function with an invalid handle are `none`. Strings passed between functions are values (without terminator). The variant of
`wcstombs_s` and `mbstowcs_s` is the file's own one (other compilers than Visual C++ from 2005 on). `malloc` does not set `errno`.
-/
namespace Verif.Dirent
open Spec (W FindData Ent Locale FullRes FindRes OpenAns Event Ret)

/-- `struct _WDIR` (245-262) without `ent`, the buffer of `_wreaddir`. -/
structure WDir where
  handle : Option Nat
  patt : Option Nat
  cached : Bool
  invalid : Bool
  data : FindData

/-- Contents of a block. -/
inductive Obj
  /-- Fresh from `malloc`. -/
  | raw
  /-- `struct DIR` (288-291) -/
  | dir (wdirp : Nat)
  | wdir (d : WDir)
  | buf (b : List W)
  /-- `struct dirent` -/
  | ent (e : Ent Byte)
  /-- Table of pointers, with its size. -/
  | ptrs (size : Nat) (l : List Nat)

structure Sys where
  heap : Nat → Option Obj
  /-- What the search will still find. -/
  handles : Nat → Option (List FindData)
  next : Nat
  errno : Nat

def Sys.init : Sys := ⟨fun _ => none, fun _ => none, 1, 0⟩

def Sys.put (s : Sys) (x : Nat) (o : Option Obj) : Sys := { s with heap := fun y => if y = x then o else s.heap y }
def Sys.hput (s : Sys) (x : Nat) (o : Option (List FindData)) : Sys := { s with handles := fun y => if y = x then o else s.handles y }

/-- `malloc`; `ok`: it has memory. -/
def malloc (s : Sys) (ok : Bool) : Option Nat × Sys :=
  if ok then (some s.next, { s.put s.next (some .raw) with next := s.next + 1 }) else (none, s)

/-- `free` -/
def free (s : Sys) : Option Nat → Option Sys
  | none => some s
  | some x => do
    let _ ← s.heap x
    return s.put x none

def getW (s : Sys) (w : Nat) : Option WDir :=
  match s.heap w with
  | some (.wdir d) => some d
  | _ => none

def setW (s : Sys) (w : Nat) (d : WDir) : Sys := s.put w (some (.wdir d))

def getBuf (s : Sys) (q : Nat) : Option (List W) :=
  match s.heap q with
  | some (.buf b) => some b
  | _ => none

def getDir (s : Sys) (p : Nat) : Option Nat :=
  match s.heap p with
  | some (.dir w) => some w
  | _ => none

/-- The string in an array. -/
def cstr (b : List W) : Option (List W) := if 0 ∈ b then some (b.takeWhile (· ≠ 0)) else none

/-- Writing `b[i]`. -/
def poke (b : List W) (i : Nat) (c : W) : Option (List W) := if i < b.length then some (b.set i c) else none

/-- `FindClose` -/
def findClose (s : Sys) (h : Option Nat) : Option Sys := do
  let h ← h
  let _ ← s.handles h
  return s.hput h none

/-- 611-648 `dirent_first` -/
def direntFirst (s : Sys) (w : Nat) (find : List W → FindRes) : Option (Bool × Sys) := do
  let d ← getW s w
  let q ← d.patt
  let b ← getBuf s q
  let pat ← cstr b
  match find pat with
  | .ok e r =>
    let h := s.next
    let s := { s.hput h (some r) with next := s.next + 1 }
    return (true, setW s w { d with handle := some h, data := e, cached := true })
  | .err code =>
    let s := setW s w { d with handle := none, cached := false, invalid := true }
    return (false, { s with errno := if code = 5 then 13 else if code = 267 then 20 else 2 })

/-- 652-674 `dirent_next` -/
def direntNext (s : Sys) (w : Nat) : Option (Option FindData × Sys) := do
  let d ← getW s w
  if d.invalid then return (none, s)
  if d.cached then return (some d.data, setW s w { d with cached := false })
  let h ← d.handle
  match ← s.handles h with
  | [] => return (none, s)
  | e :: r => return (some e, setW (s.hput h (some r)) w { d with data := e })

/-- 681-693 `dirent_hash`: the loop, from `p[i]`; `unsigned long` has 32 bits. -/
def hashLoop (b : List W) : Nat → Nat → UInt32 → Option UInt32
  | 0, _, _ => none
  | fuel + 1, i, h => do
    if i = 260 then return h
    let c ← b[i]?
    if c = 0 then return h
    hashLoop b fuel (i + 1) ((h <<< 5) + h + c.toUInt32)

def direntHash (d : FindData) : Option Int := do
  let h ← hashLoop d.cFileName 262 0 5381
  return ((h &&& ((~~~ (0 : UInt32)) >>> 1)).toNat : Int)

/-- `(long)((~0UL) >> 1)` -/
def longMax : Int := ((~~~ (0 : UInt32)) >>> 1).toNat

/-- 528-535, 789-795: file type -/
def typeOf (attr : Nat) : Nat := if attr &&& 0x40 ≠ 0 then 0x2000 else if attr &&& 0x10 ≠ 0 then 0x4000 else 0x8000

/-- 564-591 `_wclosedir` -/
def wclosedir (s : Sys) : Option Nat → Option (Int × Sys)
  | none => some (-1, { s with errno := 9 })
  | some w => do
    let d ← getW s w
    let s ← (if d.handle.isSome then findClose s d.handle else some s)
    let s ← free s d.patt
    let s ← free s (some w)
    return (0, s)

/-- 434-449: the pattern appended to the `n` characters of the path. -/
def appendPattern (b : List W) (n : Nat) : Option (List W) := do
  if n = 0 then none
  let last ← b[n - 1]?
  if last = 92 ∨ last = 47 ∨ last = 58 then
    poke (← poke b n 42) (n + 1) 0
  else
    poke (← poke (← poke b n 92) (n + 1) 42) (n + 2) 0

/-- `GetFullPathNameW(dirname, n, buf, NULL)` into an array of `cap`; the characters it does not write are unspecified (0 here).
A buffer that is too small leaves the array unspecified and makes the code go on behind it: undefined. -/
def fullPath (cap : Nat) : FullRes → Option (Nat × List W)
  | .path p => if p.length < cap then some (p.length, p ++ List.replicate (cap - p.length) 0) else none
  | .need _ => none
  | .fail => some (0, List.replicate cap 0)

/-- 430-460: with the directory's full path, of which `n` characters are in the block `q`. -/
def wopenTail (s : Sys) (w q n : Nat) (b : List W) (find : List W → FindRes) : Option (Option Nat × Sys) := do
  if n ≤ 0 then
    let (_, s) ← wclosedir s (some w)
    return (none, s)
  let b ← appendPattern b n
  let s := s.put q (some (.buf b))
  match ← direntFirst s w find with
  | (true, s) => return (some w, s)
  | (false, s) =>
    let (_, s) ← wclosedir s (some w)
    return (none, s)

/-- 378-460 `_wopendir` -/
def wopendir (s : Sys) (dirname : Option (List W)) (a : OpenAns) : Option (Option Nat × Sys) :=
  match dirname with
  | none => some (none, { s with errno := 2 })
  | some [] => some (none, { s with errno := 2 })
  | some name =>
    match malloc s a.wdirOk with
    | (none, s) => some (none, s)
    | (some w, s) =>
      let d : WDir := ⟨none, none, false, false, ⟨[], [], 0⟩⟩
      let s := setW s w d
      let n := (a.full name).1
      match malloc s a.pattOk with
      | (none, s) => do
        let (_, s) ← wclosedir s (some w)
        return (none, s)
      | (some q, s) => do
        let s := setW s w { d with patt := some q }
        let (n, b) ← fullPath ((2 * n + 16) / 2) (a.full name).2
        let s := s.put q (some (.buf b))
        wopenTail s w q n b a.find

/-- 513-523: the name, from `cFileName[i]` on; `d_name` has 261 elements. -/
def copyName (b : List W) : Nat → Nat → List W → Option (List W)
  | 0, _, _ => none
  | fuel + 1, i, acc => do
    if i < 260 then
      let c ← b[i]?
      if c ≠ 0 then
        if i < 261 then copyName b fuel (i + 1) (acc ++ [c]) else none
      else return acc
    else if i < 261 then return acc else none

/-- 537-548, 797-808: the offset, and the next entry pushed back. -/
def nextOff (s : Sys) (w : Nat) : Option (Int × Sys) := do
  match ← direntNext s w with
  | (some d, s) =>
    let off ← direntHash d
    let x ← getW s w
    return (off, setW s w { x with cached := true })
  | (none, s) => return (longMax, s)

/-- 493-556 `_wreaddir_r` (and `_wreaddir`, 469-480) -/
def wreaddirR (s : Sys) : Option Nat → Option (Int × Option (Ent W) × Sys)
  | none => some (-1, none, { s with errno := 9 })
  | some w => do
    let x ← getW s w
    if x.handle = none ∨ x.patt = none then return (-1, none, { s with errno := 9 })
    match ← direntNext s w with
    | (none, s) => return (0, none, s)
    | (some d, s) =>
      let name ← copyName d.cFileName 262 0 []
      let (off, s) ← nextOff s w
      return (0, some { name := name, namlen := name.length, type := typeOf d.attr, off := off, ino := 0, reclen := 552 }, s)

/-- C's `wcstombs`/`mbstowcs`: whole characters while they fit; `none`: (size_t)-1. -/
def convLoop {α : Type} (limit : Nat) : List (Option (List α)) → List α → Option (List α)
  | [], acc => some acc
  | none :: _, _ => none
  | some b :: r, acc => if acc.length + b.length ≤ limit then convLoop limit r (acc ++ b) else some acc

/-- 1179-1203 `dirent_wcstombs_s` with an array and a `count`: `none` is an error. -/
def wcstombsS (chunks : List (Option (List Byte))) (size count : Nat) : Option (List Byte) :=
  match convLoop size chunks [] with
  | none => none
  | some b => if b.length ≥ count then none else some (b.take (size - 1))

/-- 1149-1172 `dirent_mbstowcs_s` -/
def mbstowcsS (chunks : List (Option (List W))) (size count : Nat) : Option (List W) :=
  match convLoop size chunks [] with
  | none => none
  | some b => if b.length ≥ count then none else some (b.take (size - 1))

/-- 696-728 `opendir` -/
def opendir (loc : Locale) (s : Sys) (dirname : Option (List Byte)) (a : OpenAns) : Option (Option Nat × Sys) :=
  match dirname with
  | none => some (none, { s with errno := 2 })
  | some [] => some (none, { s with errno := 2 })
  | some name =>
    match malloc s a.dirOk with
    | (none, s) => some (none, s)
    | (some p, s) =>
      match mbstowcsS (loc.dec name) 261 261 with
      | none => do
        let s ← free s (some p)
        return (none, s)
      | some wname => do
        match ← wopendir s (some wname) a with
        | (none, s) =>
          let s ← free s (some p)
          return (none, s)
        | (some w, s) => return (some p, s.put p (some (.dir w)))

/-- 751-834 `readdir_r` (and `readdir`, 732-743) -/
def readdirR (loc : Locale) (s : Sys) (p : Option Nat) : Option (Int × Option (Ent Byte) × Sys) := do
  let p ← p
  let w ← getDir s p
  match ← direntNext s w with
  | (none, s) => return (0, none, s)
  | (some d, s) =>
    let name ← cstr d.cFileName
    let r := wcstombsS (loc.enc name) 261 261
    let alt0 ← d.cAlternateFileName[0]?
    let r ← (if r = none ∧ alt0 ≠ 0 then do
        let alt ← cstr d.cAlternateFileName
        some (wcstombsS (loc.enc alt) 261 261)
      else some r)
    match r with
    | some b =>
      let (off, s) ← nextOff s w
      return (0, some { name := b, namlen := b.length, type := typeOf d.attr, off := off, ino := 0, reclen := 296 }, s)
    | none => return (0, some { name := [63], namlen := 1, type := 0, ino := 0, off := -1, reclen := 0 }, s)

/-- 837-857 `closedir` -/
def closedir (s : Sys) : Option Nat → Option (Int × Sys)
  | none => some (-1, { s with errno := 9 })
  | some p => do
    let w ← getDir s p
    let (ok, s) ← wclosedir s (some w)
    let s ← free s (some p)
    return (ok, s)

/-- 597-608 `_wrewinddir` -/
def wrewinddir (s : Sys) (p : Option Nat) (find : List W → FindRes) : Option Sys :=
  match p with
  | none => some s
  | some w => do
    let d ← getW s w
    if d.handle = none ∨ d.patt = none then return s
    let s ← findClose s d.handle
    let (_, s) ← direntFirst s w find
    return s

/-- 860-868 `rewinddir` -/
def rewinddir (s : Sys) (p : Option Nat) (find : List W → FindRes) : Option Sys :=
  match p with
  | none => some s
  | some p => do
    let w ← getDir s p
    wrewinddir s (some w) find

/-- 871-891 `_wtelldir` -/
def wtelldir (s : Sys) : Option Nat → Option (Int × Sys)
  | none => some (-1, { s with errno := 9 })
  | some w => do
    let d ← getW s w
    if d.handle = none then return (-1, { s with errno := 9 })
    match ← direntNext s w with
    | (none, s) => return (longMax, s)
    | (some e, s) =>
      let x ← getW s w
      let s := setW s w { x with cached := true }
      let h ← direntHash e
      return (h, s)

/-- 894-903 `telldir` -/
def telldir (s : Sys) : Option Nat → Option (Int × Sys)
  | none => some (-1, { s with errno := 9 })
  | some p => do
    let w ← getDir s p
    wtelldir s (some w)

/-- 957-959 -/
def markInvalid (s : Sys) (w : Nat) : Option Sys := do
  let d ← getW s w
  return setW s w { d with invalid := true }

/-- 930-955: the entries until the hash matches. -/
def seekLoop (w : Nat) (loc : Int) : Nat → Sys → Option Sys
  | 0, _ => none
  | fuel + 1, s => do
    match ← direntNext s w with
    | (none, s) => markInvalid s w
    | (some e, s) =>
      let h ← direntHash e
      if h ≠ loc then seekLoop w loc fuel s
      else
        let d ← getW s w
        return setW s w { d with cached := true, invalid := false }

/-- How many turns the loop can take: what the search finds. -/
def bound (s : Sys) (w : Nat) : Nat :=
  match (getW s w).bind (·.handle) |>.bind s.handles with
  | some r => r.length + 3
  | none => 3

/-- 906-960 `_wseekdir` -/
def wseekdir (s : Sys) (p : Option Nat) (loc : Int) (find : List W → FindRes) : Option Sys :=
  match p with
  | none => none
  | some w => do
    let d ← getW s w
    if d.handle = none then markInvalid s w
    else if loc < 0 then markInvalid s w
    else
      let s ← findClose s d.handle
      match ← direntFirst s w find with
      | (false, s) => markInvalid s w
      | (true, s) =>
        let d ← getW s w
        let s := setW s w { d with invalid := false }
        seekLoop w loc (bound s w) s

/-- 963-970 `seekdir` -/
def seekdir (s : Sys) (p : Option Nat) (loc : Int) (find : List W → FindRes) : Option Sys :=
  match p with
  | none => some s
  | some p => do
    let w ← getDir s p
    wseekdir s (some w) loc find

/-- A call. -/
def step (loc : Locale) (s : Sys) : Event → Option (Ret × Sys)
  | .opendir n a => do
    let (p, s) ← opendir loc s n a
    return (.ptr p, s)
  | .wopendir n a => do
    let (p, s) ← wopendir s n a
    return (.ptr p, s)
  | .readdir p => do
    let (rc, e, s) ← readdirR loc s p
    return (.ent rc e, s)
  | .wreaddir p => do
    let (rc, e, s) ← wreaddirR s p
    return (.went rc e, s)
  | .closedir w p => do
    let (rc, s) ← (if w then wclosedir s p else closedir s p)
    return (.int rc, s)
  | .rewinddir w p f => do
    let s ← (if w then wrewinddir s p f else rewinddir s p f)
    return (.unit, s)
  | .telldir w p => do
    let (v, s) ← (if w then wtelldir s p else telldir s p)
    return (.int v, s)
  | .seekdir w p l f => do
    let s ← (if w then wseekdir s p l f else seekdir s p l f)
    return (.unit, s)

/-- A program: the next call, by what happened so far; `none`: it ends. -/
abbrev Prog := List (Event × Ret) → Option Event

/-- `n` calls of a program. -/
def exec (loc : Locale) (prog : Prog) : Nat → Sys → List (Event × Ret) → Option (List (Event × Ret) × Sys)
  | 0, s, h => some (h, s)
  | n + 1, s, h =>
    match prog h with
    | none => some (h, s)
    | some e => do
      let (r, s) ← step loc s e
      exec loc prog n s (h ++ [(e, r)])

end Verif.Dirent
