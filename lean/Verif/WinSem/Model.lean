import Verif.Common.Tot
import Verif.Common.CStr

/-!
# Model of the semaphores of the simple Windows pthread layer

`/repo/src/thread/pthread_win_simple/semaphore_win_simple.c`

Three parts: any number of threads using one semaphore (one step per kernel call); the conversion of a deadline;
the opening and closing of named semaphores in the kernel's name space.

Simplifications: handles are valid, so waits do not fail; a wait that times out does so at a moment when the count is
0 (the kernel decides both under one lock).  `SEM_VALUE_MAX` is a parameter `max`.
-/
namespace Verif.WinSem
open Verif.Tot

/-! ### Threads on one semaphore (133-312) -/

/-- What a call returned. -/
inductive Res where
  | ok
  | eagain
  | etimedout
  | einval
  | value (v : Nat)
  deriving DecidableEq, Repr

inductive Pc where
  | idle
  /-- in `sem_wait` (142) -/
  | wait
  /-- in `sem_trywait` (167) -/
  | try_
  /-- in `sem_timedwait` (244) -/
  | timed
  /-- in `sem_post` (273) -/
  | post
  /-- in `sem_getvalue` (294) -/
  | gv0
  /-- in `sem_getvalue`, having taken a token (297) -/
  | gv1
  | ret (r : Res)
  deriving DecidableEq, Repr

structure Sys where
  /-- the kernel's count -/
  cnt : Nat
  th : Nat → Pc
  /-- observation: successful posts -/
  posts : Nat
  /-- observation: successful waits of the three kinds -/
  takes : Nat
  /-- observation: failed `ReleaseSemaphore` in `sem_getvalue` -/
  lost : Nat

def Sys.init (n : Nat) : Sys := ⟨n, fun _ => .idle, 0, 0, 0⟩

def Sys.go (s : Sys) (t : Nat) (c : Pc) : Sys := { s with th := upd s.th t c }

/-- The next step of a thread in a call (`none`: it has to wait, or is in no call). -/
def run (max : Nat) (s : Sys) (t : Nat) : Option Sys :=
  match s.th t with
  | .idle => none
  | .ret _ => none
  -- 142-147
  | .wait => if s.cnt ≠ 0 then some ({ s with cnt := s.cnt - 1, takes := s.takes + 1 }.go t (.ret .ok)) else none
  -- 167-175
  | .try_ =>
    if s.cnt ≠ 0 then some ({ s with cnt := s.cnt - 1, takes := s.takes + 1 }.go t (.ret .ok))
    else some (s.go t (.ret .eagain))
  -- 244-247
  | .timed => if s.cnt ≠ 0 then some ({ s with cnt := s.cnt - 1, takes := s.takes + 1 }.go t (.ret .ok)) else none
  -- 273-278
  | .post =>
    if s.cnt < max then some ({ s with cnt := s.cnt + 1, posts := s.posts + 1 }.go t (.ret .ok))
    else some (s.go t (.ret .einval))
  -- 294-296, 305-307
  | .gv0 => if s.cnt ≠ 0 then some ({ s with cnt := s.cnt - 1 }.go t .gv1) else some (s.go t (.ret (.value 0)))
  -- 297-303: `previous + 1`
  | .gv1 =>
    if s.cnt < max then some ({ s with cnt := s.cnt + 1 }.go t (.ret (.value (s.cnt + 1))))
    else some ({ s with lost := s.lost + 1 }.go t (.ret .einval))

/-- A thread is in no call. -/
def Pc.free : Pc → Bool
  | .idle => true
  | .ret _ => true
  | _ => false

/-- The first control point of a call. -/
def Pc.start : Pc → Bool
  | .wait => true
  | .try_ => true
  | .timed => true
  | .post => true
  | .gv0 => true
  | _ => false

inductive Step (max N : Nat) : Sys → Sys → Prop where
  | run {s s' : Sys} (t : Nat) (ht : t < N) (h : run max s t = some s') : Step max N s s'
  | call {s : Sys} (t : Nat) (c : Pc) (ht : t < N) (h : (s.th t).free = true) (hc : c.start = true) : Step max N s (s.go t c)
  /-- 249-252 -/
  | timeout {s : Sys} (t : Nat) (ht : t < N) (h : s.th t = .timed) (h0 : s.cnt = 0) : Step max N s (s.go t (.ret .etimedout))

inductive Reach (max N n : Nat) : Sys → Prop where
  | init : Reach max N n (Sys.init n)
  | step {s s' : Sys} : Reach max N n s → Step max N s s' → Reach max N n s'

/-! ### Deadlines (180-222) -/

/-- 192-203 `arch_time_in_ms` for the system time `ft` (100 ns since 1601). -/
def nowMs (ft : Int) : Int := (ft - 116444736000000000).tdiv 10000

/-- 205-208 `arch_time_in_ms_from_timespec`. -/
def specMs (sec nsec : Int) : Int := sec * 1000 + nsec.tdiv 1000000

/-- 210-222 `arch_rel_time_in_ms`: the time given to `WaitForSingleObject`; `none`: an `__int64` overflows. -/
def relMs (sec nsec ft : Int) : Option Nat :=
  let t1 := specMs sec nsec
  let t := t1 - nowMs ft
  if t1 < -9223372036854775808 ∨ 9223372036854775807 < t1 ∨ t < -9223372036854775808 ∨ 9223372036854775807 < t then none
  else if t < 0 ∨ t ≥ 4294967295 then some 0 else some t.toNat

/-! ### Named semaphores (43-124, 321-385) -/

/-- The kernel: for each name the object's count and the number of its open handles; the handles. -/
structure Ns where
  objs : List Byte → Option (Nat × Nat)
  handles : Nat → Option (List Byte)
  next : Nat

def Ns.init : Ns := ⟨fun _ => none, fun _ => none, 0⟩

def setObj (f : List Byte → Option (Nat × Nat)) (n : List Byte) (o : Option (Nat × Nat)) : List Byte → Option (Nat × Nat) :=
  fun k => if k = n then o else f k

/-- `CreateSemaphoreA(NULL, value, max, name)` that succeeds: the handle, and whether the object existed. -/
def Ns.create (ns : Ns) (name : List Byte) (value : Nat) : Ns × Nat × Bool :=
  match ns.objs name with
  | some (c, k) =>
    ({ objs := setObj ns.objs name (some (c, k + 1)), handles := upd ns.handles ns.next (some name), next := ns.next + 1 },
      ns.next, true)
  | none =>
    ({ objs := setObj ns.objs name (some (value, 1)), handles := upd ns.handles ns.next (some name), next := ns.next + 1 },
      ns.next, false)

/-- `CloseHandle`; `false`: not a handle. -/
def Ns.close (ns : Ns) (h : Nat) : Ns × Bool :=
  match ns.handles h with
  | none => (ns, false)
  | some name =>
    let o := match ns.objs name with
      | some (c, k) => if k ≤ 1 then none else some (c, k - 1)
      | none => none
    ({ objs := setObj ns.objs name o, handles := upd ns.handles h none, next := ns.next }, true)

inductive Errno where
  | einval
  | enomem
  | eacces
  | enoent
  | enospc
  | eexist
  deriving DecidableEq, Repr

/-- "Global\" -/
def global : List Byte := [71, 108, 111, 98, 97, 108, 92]

/-- semaphore_win_simple.c 43-96 `sem_open_internal` with `sem` not null; `buf`: the uninitialised `buffer`; `fail`:
the error of `CreateSemaphoreA`.  `none`: access outside `buffer`.  Result: the handle or the error. -/
def openInternal (max : Nat) (ns : Ns) (buf : Mem) (name : Mem) (creat excl : Bool) (value : Nat) (fail : Option Errno) :
    Option (Ns × Except Errno Nat) := do
  if value > max then return (ns, .error .einval)
  else do
    let s ← name.cstr 0
    let len := s.length
    if len > 512 - 8 ∨ len < 1 then return (ns, .error .einval)
    else do
      let buf ← buf.store 0 global
      let buf ← buf.store 7 s
      let buf ← buf.poke (len + 7) 0
      let full ← buf.cstr 0
      match fail with
      | some e => return (ns, .error e)
      | none =>
        let (ns', h, existed) := ns.create full value
        if existed then
          if creat && excl then return ((ns'.close h).1, .error .eexist)
          else return (ns', .ok h)
        else if !creat then return (ns', .error .enoent)
        else return (ns', .ok h)

/-- 357-372 `sem_open`; `alloc`: the `calloc`. -/
def semOpen (max : Nat) (ns : Ns) (buf : Mem) (name : Mem) (creat excl : Bool) (value : Nat) (fail : Option Errno) (alloc : Bool) :
    Option (Ns × Except Errno Nat) :=
  if !alloc then some (ns, .error .enomem) else openInternal max ns buf name creat excl value fail

/-- A digit of `%p`. -/
def hexUpper (n : Nat) : Byte := if n < 10 then UInt8.ofNat (48 + n) else UInt8.ofNat (55 + n)

/-- `%p` in the 64-bit Microsoft C library: 16 hexadecimal digits. -/
def ptrText : Nat → Nat → List Byte
  | 0, _ => []
  | k + 1, p => ptrText k (p / 16) ++ [hexUpper (p % 16)]

/-- 110-124 `sem_init` for a semaphore at address `p` (not null). -/
def semInit (max : Nat) (ns : Ns) (buf : Mem) (p : BitVec 64) (value : Nat) (fail : Option Errno) : Option (Ns × Except Errno Nat) := do
  if value > max then return (ns, .error .einval)
  else do
    let (name, _) ← Mem.snprintf (List.replicate 24 0) 0 24 (global ++ ptrText 16 p.toNat)
    openInternal max ns buf name true true value fail

/-- 321-341, 382-385 `sem_destroy`, `sem_close`. -/
def semClose (ns : Ns) (h : Nat) : Ns × Option Errno :=
  match ns.close h with
  | (ns, true) => (ns, none)
  | (ns, false) => (ns, some .einval)

end Verif.WinSem
