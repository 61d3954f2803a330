import Verif.Mplite.Model
/-!
# Model of src/mem/mplite.c with a lock, called by many threads

The pool is the one of `Verif.Mplite.Model`.  Any number of threads call it.  `mplite_init` was given a lock whose
`acquire` waits until nobody holds it.  A locked section (between `mplite_enter` and `mplite_leave`) runs as one
step between the steps taking and giving back the lock; what the code does *outside* the lock - the `mplite_size`
of `realloc` and `resize`, the `memset` of `calloc` (byte by byte), the client's own loads and stores - are
steps of their own and come in any order between, before and after those of other threads.
Simplified: they do not come in the middle of a section.  `mpliteMt_store_swaps` and `mpliteMt_section_swaps`
(`Verif.MpliteMt.Props`) show that such a step and a locked section of another thread can be swapped; the lemmas of
`Verif.MpliteMt.Commute` show it access by access.
-/
namespace Verif.MpliteMt
open Verif.Mplite (St mallocUnsafe free size memcpy reallocMove maxmem freemem isPow2)

/-- The calls. -/
inductive Call where
  | malloc (n : Int)
  | calloc (n : Int)
  | free (p : Nat)
  | realloc (p : Nat) (n : Int)
  | resize (p : Nat) (n : Int)
  | maxmem
  | freemem
deriving DecidableEq

/-- What a call returns: nothing, a pointer (`none` is NULL), a number. -/
inductive Ret where
  | unit
  | ptr (p : Option Nat)
  | num (n : Int)
deriving DecidableEq

/-- Where a thread is. -/
inductive Phase where
  /-- in the client's code -/
  | idle
  /-- mplite.c 173, 207: about to call `mplite_size`, without the lock -/
  | sizing (c : Call)
  /-- at `mplite_enter`; `old` is the size `realloc` has read -/
  | want (c : Call) (old : Nat)
  /-- has the lock -/
  | inside (c : Call) (old : Nat)
  /-- at `mplite_leave` -/
  | leaving (c : Call) (r : Ret)
  /-- mplite.c 156: in the `memset` of `calloc`, `j` bytes are zero -/
  | zeroing (p n j : Nat)
  /-- at the `return` -/
  | returning (c : Call) (r : Ret)
deriving DecidableEq

/-- The pool, who has the lock, and where every thread is. -/
structure Sys where
  pool : St
  holder : Option Nat
  ph : Nat → Phase

/-- Thread `i` goes to `q`. -/
def Sys.goto (x : Sys) (i : Nat) (q : Phase) : Sys := { x with ph := fun k => if k = i then q else x.ph k }

/-- What a step gives. -/
inductive Out where
  /-- it has to wait -/
  | wait
  /-- undefined behaviour or a failing ASSERT -/
  | fault
  /-- it is done -/
  | ok (x : Sys)

/-- mplite.c 121-128, 138-144, 151-154, 161-171, 195-205, 217-222, 237-246: the beginning of a call, up to
`mplite_enter` or `mplite_size`. -/
def enter (c : Call) : Phase :=
  match c with
  | .malloc n => if n ≤ 0 then .returning c (.ptr none) else .want c 0
  | .calloc n => if n ≤ 0 then .returning c (.ptr none) else .want c 0
  | .free _ => .want c 0
  | .realloc _ n => if isPow2 n = false then .returning c (.ptr none) else .sizing c
  | .resize _ n => if isPow2 n = false then .returning c (.num (-1)) else .sizing c
  | .maxmem => .want c 0
  | .freemem => .want c 0

/-- mplite.c 173-177, 207-213: what follows `nOld = mplite_size(...)`. -/
def sized (c : Call) (old : Nat) : Phase :=
  match c with
  | .realloc p n => if n ≤ old then .returning c (.ptr (some p)) else .want c old
  | .resize _ n => .returning c (.num (if n ≤ (old : Int) then 0 else -1))
  | _ => .idle

/-- The pointer whose size is asked. -/
def sizeArg : Call → Nat
  | .realloc p _ => p
  | .resize p _ => p
  | _ => 0

/-- mplite.c 131-133 (also by `calloc`), 146-148, 178-186, 224-229, 246-258: the locked section. -/
def body (c : Call) (old : Nat) (s : St) : Option (St × Ret) :=
  match c with
  | .malloc n => (mallocUnsafe s n).map fun t => (t.1, .ptr t.2)
  | .calloc n => (mallocUnsafe s n).map fun t => (t.1, .ptr t.2)
  | .free p => (free s p).map fun t => (t, .unit)
  | .realloc p n => (reallocMove s p old n).map fun t => (t.1, .ptr t.2)
  | .resize _ _ => none
  | .maxmem => some (s, .num (maxmem s))
  | .freemem => (freemem s).map fun f => (s, .num f)

/-- What follows `mplite_leave`: `calloc` goes on to its `memset` (mplite.c 154-157). -/
def left (c : Call) (r : Ret) : Phase :=
  match c, r with
  | .calloc n, .ptr (some p) => .zeroing p n.toNat 0
  | _, _ => .returning c r

/-- The next step of thread `i` in a call (`wait` when it is in the client's code). -/
def move (x : Sys) (i : Nat) : Out :=
  match x.ph i with
  | .idle => .wait
  | .sizing c =>
    match size x.pool (sizeArg c) with
    | none => .fault
    | some old => .ok (x.goto i (sized c old))
  | .want c old => if x.holder = none then .ok { x.goto i (.inside c old) with holder := some i } else .wait
  | .inside c old =>
    match body c old x.pool with
    | none => .fault
    | some (s, r) => .ok { x.goto i (.leaving c r) with pool := s }
  | .leaving c r => .ok { x.goto i (left c r) with holder := none }
  | .zeroing p n j =>
    if j < n then
      if p + j < x.pool.nBlock * x.pool.szAtom then
        .ok { x.goto i (.zeroing p n (j + 1)) with pool := Mplite.write x.pool (p + j) 0 }
      else .fault
    else .ok (x.goto i (.returning (.calloc n) (.ptr (some p))))
  | .returning _ _ => .wait

end Verif.MpliteMt
