import Verif.Hashmap.Model
/-!
# Model of src/mem/allocation_tracker.c and src/mem/allocator.c

Memory is flat: a byte per address, plus the list of the blocks the C library's `malloc` currently
lends out.  Every access the code makes is checked to stay inside one such block; leaving it is the
distinct outcome `ub`.  `abort()` is the distinct outcome `abort`.  The tracker's table is the model
of hashmap.c (`Verif.Hashmap`), whose values are the addresses of the tracker's own records.

Simplifications: the records and the table live outside the flat memory (a stray write of the client
cannot hit them); `file_path`, `func_name`, `file_line` of a record are not modelled; addresses are
natural numbers, so a pointer sum that leaves the address space is out of every block (`ub`) instead of
wrapping; calls are not interleaved with each other.
-/
namespace Verif.Allocator
open Verif.Hashmap (Ptr Cfg Map Ev)

/-- How a piece of code ends. -/
inductive Res (α : Type) where
  | ok (a : α)
  | abort
  | ub
deriving Repr, DecidableEq

/-- Sequencing. -/
def Res.bind {α β : Type} : Res α → (α → Res β) → Res β
  | .ok a, f => f a
  | .abort, _ => .abort
  | .ub, _ => .ub

/-- A partial step of the table model: its undefined behaviour is ours. -/
def Res.ofOption {α : Type} : Option α → Res α
  | some a => .ok a
  | none => .ub

/-- allocation_tracker.c 38-50: `allocation_t`. -/
structure Rec where
  allocatorId : Nat
  ptr : Nat
  size : Nat
  freed : Bool
deriving Repr, DecidableEq

/-- The program's memory and the statics of allocation_tracker.c (62-64).
`allocations = none` is the NULL pointer: the tracker is off. -/
structure St where
  allocations : Option Map
  mem : Nat → UInt8
  raw : List (Nat × Nat)
  recs : Nat → Option Rec

/-- allocation_tracker.c 60: the string literal `"tinybird"`. -/
def canary : List UInt8 := [116, 105, 110, 121, 98, 105, 114, 100]

/-- allocation_tracker.c 62, 92: `canary_size = strlen(canary)`. -/
def canarySize : Nat := canary.length

/-- allocation_tracker.c 101-102 with hash_functions.c 38-41 (`PTR_TO_INT(key) * 2654435761`, the low
32 bits of the product) and 81-84: keys are not owned, values are released with `free`, there is a
lock. -/
def trackerCfg : Cfg where
  fnHash p := BitVec.ofNat 32 (p * 2654435761)
  fnEq a b := a == b
  keyFree := false
  valFree := true
  lock := true

/-! ## The C library -/

/-- What the environment answers to the allocations made by one API call: the address `malloc` would
return for the block and the old contents of that memory, the address `calloc` would return for the
record, and whether the table gets memory for an entry and for growing. -/
structure Env where
  r : Nat
  junk : Nat → UInt8
  q : Nat
  entryOk : Bool
  growOk : Bool

/-- Two blocks do not share a byte (a block of no bytes still has an address of its own). -/
def disjB (a b : Nat × Nat) : Bool :=
  decide (a.1 + max a.2 1 ≤ b.1) || decide (b.1 + max b.2 1 ≤ a.1)

/-- `malloc(n)`: the environment proposes address `r`; it is taken when a correct C library could have
returned it, otherwise the call fails.  Contents of the block are whatever the environment says. -/
def rawMalloc (s : St) (n r : Nat) (junk : Nat → UInt8) : St × Nat :=
  if r ≠ 0 ∧ r + max n 1 < 2 ^ 64 ∧ s.raw.all (disjB (r, n)) = true then
    ({ s with
        mem := fun a => if r ≤ a ∧ a < r + n then junk a else s.mem a
        raw := s.raw ++ [(r, n)] }, r)
  else (s, 0)

/-- `free(p)`: undefined unless `p` is NULL or an address `malloc` returned. -/
def rawFree (s : St) (p : Nat) : Res St :=
  if p = 0 then .ok s
  else if s.raw.any (fun b => b.1 == p) then .ok { s with raw := s.raw.filter (fun b => b.1 != p) }
  else .ub

/-- Is `[a, a+n)` inside one block? -/
def canAccess (s : St) (a n : Nat) : Bool :=
  s.raw.any (fun b => decide (b.1 ≤ a) && decide (a + n ≤ b.1 + b.2))

/-- `memcpy(a, bs, |bs|)` from outside the modelled memory. -/
def store (s : St) (a : Nat) (bs : List UInt8) : Res St :=
  if bs = [] ∨ canAccess s a bs.length = true then
    .ok { s with mem := fun x => if a ≤ x ∧ x < a + bs.length then bs.getD (x - a) 0 else s.mem x }
  else .ub

/-- The source side of `memcpy(_, a, n)`. -/
def load (s : St) (a n : Nat) : Res (List UInt8) :=
  if n = 0 ∨ canAccess s a n = true then .ok ((List.range n).map fun i => s.mem (a + i)) else .ub

/-- The table releases records with the C library's `free`: each must be a live record. -/
def applyFrees : List Ev → (Nat → Option Rec) → Res (Nat → Option Rec)
  | [], recs => .ok recs
  | .freeVal q :: es, recs =>
    match recs q with
    | none => .ub
    | some _ => applyFrees es (fun x => if x = q then none else recs x)
  | _ :: es, recs => applyFrees es recs

/-! ## allocation_tracker.c -/

/-- allocation_tracker.c 86-103: `allocation_tracker_init` (a table that cannot be allocated leaves
the tracker off). `ok1`, `ok2`: the table's allocations. -/
def trackerInit (s : St) (ok1 ok2 : Bool) : Res St :=
  match s.allocations with
  | some _ => .ok s
  | none => (Res.ofOption (Hashmap.create 1024 ok1 ok2)).bind fun m => .ok { s with allocations := m }

/-- allocation_tracker.c 106-117: `allocation_tracker_uninit`. -/
def trackerUninit (s : St) : Res St :=
  match s.allocations with
  | none => .ok s
  | some m =>
    (Res.ofOption (Hashmap.free trackerCfg m)).bind fun evs =>
    (applyFrees evs s.recs).bind fun recs =>
    .ok { s with allocations := none, recs := recs }

/-- allocation_tracker.c 119-126: `allocation_tracker_reset`. -/
def trackerReset (s : St) : Res St :=
  match s.allocations with
  | none => .ok s
  | some m =>
    (Res.ofOption (Hashmap.clear trackerCfg m)).bind fun r =>
    (applyFrees r.2 s.recs).bind fun recs =>
    .ok { s with allocations := some r.1, recs := recs }

/-- allocation_tracker.c 226-237: the loop of `allocation_memory_corruption_checker` over the canary
bytes still to compare (`i` is how many were compared). -/
def checkLoop (s : St) (before after : Nat) : Nat → List UInt8 → Res Unit
  | _, [] => .ok ()
  | i, c :: cs =>
    (load s (before + i) 1).bind fun x =>
    if x ≠ [c] then .abort
    else
      (load s (after + i) 1).bind fun y =>
      if y ≠ [c] then .abort else checkLoop s before after (i + 1) cs

/-- allocation_tracker.c 221-239: `allocation_memory_corruption_checker`. -/
def corruptionCheck (s : St) (a : Rec) : Res Unit :=
  checkLoop s (a.ptr - canarySize) (a.ptr + a.size) 0 canary

/-- allocation_tracker.c 241-263: `allocation_entry_freed_checker`.  The accumulated state is the
number of unfreed bytes and the calls of `fn_report` (pointer, size); once the program has aborted
nothing more happens.  It always returns true. -/
def freedChecker (s : St) (acc : Res (Nat × List (Nat × Nat))) (_key value : Ptr) :
    Bool × Res (Nat × List (Nat × Nat)) :=
  (true, acc.bind fun t =>
    match s.recs value with
    | none => .ub
    | some a =>
      if a.freed = true then .ok t
      else
        (corruptionCheck s a).bind fun _ =>
        .ok ((t.1 + a.size) % 2 ^ 64, t.2 ++ [(a.ptr, a.size)]))

/-- allocation_tracker.c 128-142: `allocation_tracker_expect_no_allocations`: the byte count and the
calls of `fn_report`. -/
def expectNoAllocations (s : St) : Res (Nat × List (Nat × Nat)) :=
  match s.allocations with
  | none => .ok (0, [])
  | some m =>
    (Res.ofOption (Hashmap.foreach trackerCfg (freedChecker s) m (.ok (0, [])))).bind fun r => r.1

/-- allocation_tracker.c 164-167, 178: fill in a record. -/
def fillRec (id ptr size : Nat) : Rec := ⟨id, ptr, size, false⟩

/-- allocation_tracker.c 144-183: `allocation_tracker_notify_alloc`. -/
def notifyAlloc (s : St) (id ptr size : Nat) (e : Env) : Res (St × Nat) :=
  match s.allocations with
  | none => .ok (s, ptr)
  | some m =>
    if ptr = 0 then .ok (s, ptr)
    else
      let ret := ptr + canarySize
      (Res.ofOption (Hashmap.get trackerCfg m ret)).bind fun g =>
      let s1 : Res (St × Nat) :=
        if g.1 ≠ 0 then
          match s.recs g.1 with
          | none => .ub
          | some a => if a.freed = true then .ok (s, g.1) else .abort
        else if e.q = 0 ∨ (s.recs e.q).isSome = true then .abort
        else
          (Res.ofOption (Hashmap.put trackerCfg m ret e.q e.entryOk e.growOk)).bind fun p =>
          (applyFrees p.2.2 s.recs).bind fun recs =>
          .ok ({ s with allocations := some p.1, recs := recs }, e.q)
      s1.bind fun t =>
      let s2 : St := { t.1 with recs := fun x => if x = t.2 then some (fillRec id ret size) else t.1.recs x }
      (store s2 (ret - canarySize) canary).bind fun s3 =>
      (store s3 (ret + size) canary).bind fun s4 =>
      .ok (s4, ret)

/-- allocation_tracker.c 185-202: `allocation_tracker_notify_free`. -/
def notifyFree (s : St) (id ptr : Nat) : Res (St × Nat) :=
  match s.allocations with
  | none => .ok (s, ptr)
  | some m =>
    if ptr = 0 then .ok (s, ptr)
    else
      (Res.ofOption (Hashmap.get trackerCfg m ptr)).bind fun g =>
      if g.1 = 0 then .abort
      else
        match s.recs g.1 with
        | none => .ub
        | some a =>
          if a.freed = true then .abort
          else if a.allocatorId ≠ id then .abort
          else
            let s1 : St := { s with recs := fun x => if x = g.1 then some { a with freed := true } else s.recs x }
            (corruptionCheck s1 { a with freed := true }).bind fun _ =>
            (Res.ofOption (Hashmap.remove trackerCfg m ptr)).bind fun r =>
            (applyFrees r.2.2 s1.recs).bind fun recs =>
            .ok ({ s1 with allocations := some r.1, recs := recs }, ptr - canarySize)

/-- allocation_tracker.c 204-214: `allocation_tracker_ptr_size`. -/
def ptrSize (s : St) (id ptr : Nat) : Res Nat :=
  match s.allocations with
  | none => .ok 0
  | some m =>
    if ptr = 0 then .ok 0
    else
      (Res.ofOption (Hashmap.get trackerCfg m ptr)).bind fun g =>
      if g.1 = 0 then .abort
      else
        match s.recs g.1 with
        | none => .ub
        | some a => if a.allocatorId ≠ id then .abort else .ok a.size

/-- allocation_tracker.c 216-219: `allocation_tracker_resize_for_canary` (`size_t` arithmetic). -/
def resizeForCanary (s : St) (size : Nat) : Nat :=
  match s.allocations with
  | none => size
  | some _ => (size + 2 * canarySize) % 2 ^ 64

/-! ## allocator.c -/

/-- allocator.c 37: `ALLOCTOR_ID`. -/
def allocatorId : Nat := 99

/-- allocator.c 92-101: `lcu_malloc_trace`, 103-106 `lcu_malloc`. -/
def lcuMalloc (s : St) (size : Nat) (e : Env) : Res (St × Nat) :=
  let p := rawMalloc s (resizeForCanary s size) e.r e.junk
  if p.2 = 0 then .ok (p.1, 0) else notifyAlloc p.1 allocatorId p.2 size e

/-- allocator.c 39-56: `lcu_strdup_trace` of the C string with characters `str`. -/
def lcuStrdup (s : St) (str : List UInt8) (e : Env) : Res (St × Nat) :=
  let size := str.length + 1
  let p := rawMalloc s (resizeForCanary s size) e.r e.junk
  if p.2 = 0 then .ok (p.1, 0)
  else
    (notifyAlloc p.1 allocatorId p.2 size e).bind fun q =>
    if q.2 = 0 then .ok (q.1, 0)
    else (store q.1 q.2 (str ++ [0])).bind fun s' => .ok (s', q.2)

/-- allocator.c 63-85: `lcu_strndup_trace` of the C string with characters `str`. -/
def lcuStrndup (s : St) (str : List UInt8) (len : Nat) (e : Env) : Res (St × Nat) :=
  let size := if len < str.length then len else str.length
  let p := rawMalloc s (resizeForCanary s (size + 1)) e.r e.junk
  if p.2 = 0 then .ok (p.1, 0)
  else
    (notifyAlloc p.1 allocatorId p.2 (size + 1) e).bind fun q =>
    if q.2 = 0 then .ok (q.1, 0)
    else
      (store q.1 q.2 (str.take size)).bind fun s' =>
      (store s' (q.2 + size) [0]).bind fun s'' => .ok (s'', q.2)

/-- allocator.c 108-118: `lcu_calloc_trace` (the product is `size_t` arithmetic; `calloc` hands out
zeroed memory). -/
def lcuCalloc (s : St) (count size : Nat) (e : Env) : Res (St × Nat) :=
  let request := count * size % 2 ^ 64
  let p := rawMalloc s (resizeForCanary s request) e.r (fun _ => 0)
  if p.2 = 0 then .ok (p.1, 0) else notifyAlloc p.1 allocatorId p.2 request e

/-- allocator.c 172-183: `lcu_free`. -/
def lcuFree (s : St) (ptr : Nat) : Res St :=
  if ptr = 0 then .ok s
  else
    (notifyFree s allocatorId ptr).bind fun p =>
    if p.2 ≠ 0 then rawFree p.1 p.2 else .ok p.1

/-- allocator.c 131-165: `lcu_realloc_trace`. -/
def lcuRealloc (s : St) (ptr size : Nat) (e : Env) : Res (St × Nat) :=
  if size = 0 then
    if ptr ≠ 0 then (lcuFree s ptr).bind fun s' => .ok (s', 0) else .ok (s, 0)
  else if ptr = 0 then lcuMalloc s ((size + 2048) % 2 ^ 64) e
  else
    (ptrSize s allocatorId ptr).bind fun cur =>
    if cur ≠ 0 ∧ size ≤ cur then .ok (s, ptr)
    else
      (lcuMalloc s ((size + 2048) % 2 ^ 64) e).bind fun p =>
      if p.2 = 0 then .ok (p.1, 0)
      else
        (load p.1 ptr cur).bind fun bs =>
        (store p.1 p.2 bs).bind fun s' =>
        (lcuFree s' ptr).bind fun s'' => .ok (s'', p.2)

/-- allocator.c 185-193: `lcu_free_and_reset` of a pointer variable holding `p`: the new value of the
variable. -/
def lcuFreeAndReset (s : St) (p : Nat) : Res (St × Nat) :=
  if p = 0 then .ok (s, p) else (lcuFree s p).bind fun s' => .ok (s', 0)

/-! ## Histories -/

/-- One step of a client: an API call, or an access through a pointer (`write p i b` is `p[i] = b`,
`read p i` is `p[i]`, anywhere in memory lent out by the C library, in particular also past the end of
a block onto the canary). -/
inductive Call
  | malloc (n : Nat)
  | calloc (c n : Nat)
  | strdup (s : List UInt8)
  | strndup (s : List UInt8) (n : Nat)
  | realloc (p n : Nat)
  | free (p : Nat)
  | write (p : Nat) (i : Int) (b : UInt8)
  | read (p : Nat) (i : Int)
  | reset
  | leaks
deriving Repr, DecidableEq

/-- What the client sees. -/
inductive Out
  | ptr (p : Nat)
  | unit
  | byte (b : UInt8)
  | leaked (total : Nat) (reports : List (Nat × Nat))
deriving Repr, DecidableEq

/-- Perform one step. -/
def step (s : St) (c : Call) (e : Env) : Res (St × Out) :=
  match c with
  | .malloc n => (lcuMalloc s n e).bind fun p => .ok (p.1, .ptr p.2)
  | .calloc c n => (lcuCalloc s c n e).bind fun p => .ok (p.1, .ptr p.2)
  | .strdup str => (lcuStrdup s str e).bind fun p => .ok (p.1, .ptr p.2)
  | .strndup str n => (lcuStrndup s str n e).bind fun p => .ok (p.1, .ptr p.2)
  | .realloc p n => (lcuRealloc s p n e).bind fun p => .ok (p.1, .ptr p.2)
  | .free p => (lcuFree s p).bind fun s' => .ok (s', .unit)
  | .write p i b => (store s ((p : Int) + i).toNat [b]).bind fun s' => .ok (s', .unit)
  | .read p i => (load s ((p : Int) + i).toNat 1).bind fun bs => .ok (s, .byte (bs.getD 0 0))
  | .reset => (trackerReset s).bind fun s' => .ok (s', .unit)
  | .leaks => (expectNoAllocations s).bind fun r => .ok (s, .leaked r.1 r.2)

/-- A history of steps, each with the environment's answers: the final state and what was seen. -/
def run (s : St) : List (Call × Env) → Res (St × List Out)
  | [] => .ok (s, [])
  | (c, e) :: cs =>
    (step s c e).bind fun p =>
    (run p.1 cs).bind fun q => .ok (q.1, p.2 :: q.2)

/-- A client that decides its next step from everything it has seen so far, run for as many steps as
there are environment answers: the final state and the trace. -/
def drive (prog : List (Call × Out) → Call) (s : St) (trace : List (Call × Out)) :
    List Env → Res (St × List (Call × Out))
  | [] => .ok (s, trace)
  | e :: es =>
    (step s (prog trace) e).bind fun p => drive prog p.1 (trace ++ [(prog trace, p.2)]) es

/-- A program that has just started: nothing allocated, tracker off. -/
def start (mem : Nat → UInt8) : St := ⟨none, mem, [], fun _ => none⟩

end Verif.Allocator
