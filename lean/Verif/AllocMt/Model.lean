import Verif.Allocator.Model
/-!
# Model of the memory checker under threads

src/mem/allocator.c and src/mem/allocation_tracker.c, called from any number of threads.  `Verif.Allocator`
models the calls one after the other; here each call is cut into the pieces between which other threads may
run: every call of the hash map is atomic because it is bracketed by the map's mutex
(allocation_tracker.c 93-102, hashmap.c 56-61), everything else is not protected at all.
The leak check holds the mutex while it walks over the map (hashmap.c 369-390), but threads that do not need
the map go on running between two visits.

The flat memory, the C library's blocks and the records are those of `Verif.Allocator.Model`.  Memory is
sequentially consistent.  `malloc`, `free`, `calloc` of the C library are atomic.  Not modelled here:
`init`, `uninit`, `reset` running concurrently; `strdup`, `calloc`, `realloc`, which are a `malloc` plus accesses
to owned blocks (`realloc`: `allocation_tracker_ptr_size`, `malloc`, a copy, `free`).
-/
namespace Verif.AllocMt
open Verif.Allocator
open Verif.Hashmap (Map)

/-- A block the client owns: address, size.  `q` (the address of the tracker's record) is bookkeeping of
the model: the client cannot see it and the code below never uses it. -/
structure Blk where
  p : Nat
  n : Nat
  q : Nat
deriving Repr, DecidableEq

/-- What a call returned. -/
inductive Ret
  | unit
  | ptr (p : Nat)
  | size (n : Nat)
  | leaked (total : Nat) (reports : List (Nat × Nat))
deriving Repr, DecidableEq

/-- Where a thread is. -/
inductive Pc
  /-- not inside a call; the result of the last one -/
  | ret (o : Ret)
  /-- allocator.c 95: before `malloc` -/
  | mRaw (n : Nat)
  /-- allocation_tracker.c 154: before `hashmap_get`; `r` is the raw address -/
  | mGet (r n : Nat)
  /-- allocation_tracker.c 161: before `calloc` of the record -/
  | mRec (r n : Nat)
  /-- allocation_tracker.c 163: before `hashmap_put` -/
  | mPut (r n q : Nat)
  /-- allocation_tracker.c 165-168: before the assignments to the record -/
  | mId (r n q : Nat)
  | mFreed (r n q : Nat)
  | mSize (r n q : Nat)
  | mPtr (r n q : Nat)
  /-- allocation_tracker.c 180, 181: before the canaries are written -/
  | mFront (r n q : Nat)
  | mBack (r n q : Nat)
  /-- allocation_tracker.c 191: before `hashmap_get` -/
  | fGet (b : Blk)
  /-- allocation_tracker.c 193-194: before the record is read; `g` is what the map gave -/
  | fChk (b : Blk) (g : Nat)
  /-- allocation_tracker.c 195: before `allocation->freed = true` -/
  | fMark (b : Blk) (g : Nat)
  /-- allocation_tracker.c 196: before the check of the canaries -/
  | fCan (b : Blk) (g : Nat)
  /-- allocation_tracker.c 200: before `hashmap_remove` -/
  | fRem (b : Blk)
  /-- allocator.c 181: before `free` -/
  | fRaw (b : Blk)
  /-- allocation_tracker.c 210: before `hashmap_get` -/
  | sGet (b : Blk)
  /-- allocation_tracker.c 212-213: before the record is read -/
  | sRead (b : Blk) (g : Nat)
  /-- allocation_tracker.c 140: before `hashmap_foreach` -/
  | lGo
  /-- inside `hashmap_foreach`, holding the mutex: entries still to visit, bytes and reports so far -/
  | lWalk (todo : List (Nat × Nat)) (total : Nat) (reports : List (Nat × Nat))
deriving Repr, DecidableEq

/-- The whole process: memory and tracker, threads, blocks the client owns, holder of the map's mutex. -/
structure Sys where
  st : St
  ths : List Pc
  owned : List Blk
  lock : Option Nat

/-- The map the tracker uses. -/
def table (s : St) : Option Map := s.allocations

/-- allocation_tracker.c 241-263 `allocation_entry_freed_checker` for the entry with record `v`. -/
def visitEntry (s : St) (v total : Nat) (reports : List (Nat × Nat)) : Res (Nat × List (Nat × Nat)) :=
  match s.recs v with
  | none => .ub
  | some a =>
    if a.freed = true then .ok (total, reports)
    else (corruptionCheck s a).bind fun _ => .ok ((total + a.size) % 2 ^ 64, reports ++ [(a.ptr, a.size)])

/-- Change a record in place (`allocation->… = …`); undefined if the record is gone. -/
def setRec (s : St) (q : Nat) (f : Rec → Rec) : Res St :=
  match s.recs q with
  | none => .ub
  | some a => .ok { s with recs := fun x => if x = q then some (f a) else s.recs x }

/-- One piece of thread `i`'s current call.  `none`: the thread cannot move (it is outside of a call or
the mutex is taken).  The environment `e` answers the allocations. -/
def act (s : Sys) (i : Nat) (e : Env) : Option (Res Sys) :=
  let go (pc : Pc) (st : St) : Sys := { s with st := st, ths := s.ths.set i pc }
  match s.ths[i]? with
  | none => none
  | some (.ret _) => none
  -- allocator.c 92-101 `lcu_malloc_trace`
  | some (.mRaw n) =>
    let p := rawMalloc s.st (resizeForCanary s.st n) e.r e.junk
    some (.ok (go (if p.2 = 0 then .ret (.ptr 0) else .mGet p.2 n) p.1))
  -- allocation_tracker.c 154-159
  | some (.mGet r n) =>
    if s.lock.isSome then none
    else match table s.st with
    | none => some .ub
    | some m => some <| (Res.ofOption (Hashmap.get trackerCfg m (r + canarySize))).bind fun g =>
      if g.1 = 0 then .ok (go (.mRec r n) s.st)
      else match s.st.recs g.1 with
        | none => .ub
        | some a => if a.freed = true then .ok (go (.mId r n g.1) s.st) else .abort
  -- allocation_tracker.c 161-162 (`calloc` zeroes the record)
  | some (.mRec r n) =>
    if e.q = 0 ∨ (s.st.recs e.q).isSome = true then some .abort
    else some (.ok (go (.mPut r n e.q)
      { s.st with recs := fun x => if x = e.q then some ⟨0, 0, 0, false⟩ else s.st.recs x }))
  -- allocation_tracker.c 163
  | some (.mPut r n q) =>
    if s.lock.isSome then none
    else match table s.st with
    | none => some .ub
    | some m => some <|
      (Res.ofOption (Hashmap.put trackerCfg m (r + canarySize) q e.entryOk e.growOk)).bind fun p =>
      (applyFrees p.2.2 s.st.recs).bind fun recs =>
      .ok (go (.mId r n q) { s.st with allocations := some p.1, recs := recs })
  -- allocation_tracker.c 165-168
  | some (.mId r n q) => some <| (setRec s.st q fun a => { a with allocatorId := Allocator.allocatorId }).bind fun st =>
      .ok (go (.mFreed r n q) st)
  | some (.mFreed r n q) => some <| (setRec s.st q fun a => { a with freed := false }).bind fun st =>
      .ok (go (.mSize r n q) st)
  | some (.mSize r n q) => some <| (setRec s.st q fun a => { a with size := n }).bind fun st =>
      .ok (go (.mPtr r n q) st)
  | some (.mPtr r n q) => some <| (setRec s.st q fun a => { a with ptr := r + canarySize }).bind fun st =>
      .ok (go (.mFront r n q) st)
  -- allocation_tracker.c 180-182, allocator.c 100
  | some (.mFront r n q) => some <| (store s.st r canary).bind fun st => .ok (go (.mBack r n q) st)
  | some (.mBack r n q) => some <| (store s.st (r + canarySize + n) canary).bind fun st =>
      .ok { go (.ret (.ptr (r + canarySize))) st with
            owned := s.owned ++ [⟨r + canarySize, n, q⟩] }
  -- allocation_tracker.c 191-192
  | some (.fGet b) =>
    if s.lock.isSome then none
    else match table s.st with
    | none => some .ub
    | some m => some <| (Res.ofOption (Hashmap.get trackerCfg m b.p)).bind fun g =>
      if g.1 = 0 then .abort else .ok (go (.fChk b g.1) s.st)
  -- allocation_tracker.c 193-194
  | some (.fChk b g) => some <|
    match s.st.recs g with
    | none => .ub
    | some a => if a.freed = true ∨ a.allocatorId ≠ Allocator.allocatorId then .abort else .ok (go (.fMark b g) s.st)
  -- allocation_tracker.c 195
  | some (.fMark b g) => some <| (setRec s.st g fun a => { a with freed := true }).bind fun st =>
      .ok (go (.fCan b g) st)
  -- allocation_tracker.c 196
  | some (.fCan b g) => some <|
    match s.st.recs g with
    | none => .ub
    | some a => (corruptionCheck s.st a).bind fun _ => .ok (go (.fRem b) s.st)
  -- allocation_tracker.c 200
  | some (.fRem b) =>
    if s.lock.isSome then none
    else match table s.st with
    | none => some .ub
    | some m => some <| (Res.ofOption (Hashmap.remove trackerCfg m b.p)).bind fun r =>
      (applyFrees r.2.2 s.st.recs).bind fun recs =>
      .ok (go (.fRaw b) { s.st with allocations := some r.1, recs := recs })
  -- allocation_tracker.c 201, allocator.c 178-181
  | some (.fRaw b) => some <| (rawFree s.st (b.p - canarySize)).bind fun st => .ok (go (.ret .unit) st)
  -- allocation_tracker.c 210-211
  | some (.sGet b) =>
    if s.lock.isSome then none
    else match table s.st with
    | none => some .ub
    | some m => some <| (Res.ofOption (Hashmap.get trackerCfg m b.p)).bind fun g =>
      if g.1 = 0 then .abort else .ok (go (.sRead b g.1) s.st)
  -- allocation_tracker.c 212-213
  | some (.sRead b g) => some <|
    match s.st.recs g with
    | none => .ub
    | some a =>
      if a.allocatorId ≠ Allocator.allocatorId then .abort
      else .ok { go (.ret (.size a.size)) s.st with owned := s.owned ++ [b] }
  -- hashmap.c 371-376
  | some .lGo =>
    if s.lock.isSome then none
    else match table s.st with
    | none => some .ub
    | some m => some (.ok { go (.lWalk (m.buckets.flatten.map fun x => (x.key, x.value)) 0 []) s.st with
        lock := some i })
  -- hashmap.c 376-390
  | some (.lWalk ((_, v) :: todo) total reports) => some <|
    (visitEntry s.st v total reports).bind fun t => .ok (go (.lWalk todo t.1 t.2) s.st)
  | some (.lWalk [] total reports) =>
    some (.ok { go (.ret (.leaked total reports)) s.st with lock := none })

/-- The thread is inside `lcu_malloc`. -/
def inMalloc : Pc → Bool
  | .mRaw _ | .mGet _ _ | .mRec _ _ | .mPut _ _ _ | .mId _ _ _ | .mFreed _ _ _ | .mSize _ _ _ | .mPtr _ _ _
  | .mFront _ _ _ | .mBack _ _ _ => true
  | _ => false

/-- The thread is inside the leak check. -/
def inLeaks : Pc → Bool
  | .lGo | .lWalk _ _ _ => true
  | _ => false

/-- One step of the process.  The client only uses blocks it owns; a block passed to `free` or
`ptr_size` is not used by others meanwhile.  With `quiet` the client also does not run a leak check while
another thread allocates. -/
inductive Step (quiet : Bool) (s : Sys) : Res Sys → Prop
  /-- a thread inside a call goes on; records and table entries are granted -/
  | run (i : Nat) (e : Env) (r : Res Sys) (hq : e.q ≠ 0 ∧ s.st.recs e.q = none)
      (he : ∀ m, table s.st = some m → Hashmap.entryOk e.entryOk m.size = true) (h : act s i e = some r) : Step quiet s r
  | malloc (i n : Nat) (o : Ret) (h : s.ths[i]? = some (.ret o)) (hn : n + 16 < 2 ^ 64)
      (hl : quiet = true → ∀ pc ∈ s.ths, inLeaks pc = false) : Step quiet s (.ok { s with ths := s.ths.set i (.mRaw n) })
  | free (i : Nat) (b : Blk) (o : Ret) (h : s.ths[i]? = some (.ret o)) (hb : b ∈ s.owned) :
      Step quiet s (.ok { s with ths := s.ths.set i (.fGet b), owned := s.owned.erase b })
  | size (i : Nat) (b : Blk) (o : Ret) (h : s.ths[i]? = some (.ret o)) (hb : b ∈ s.owned) :
      Step quiet s (.ok { s with ths := s.ths.set i (.sGet b), owned := s.owned.erase b })
  | leaks (i : Nat) (o : Ret) (h : s.ths[i]? = some (.ret o))
      (hl : quiet = true → ∀ pc ∈ s.ths, inMalloc pc = false) : Step quiet s (.ok { s with ths := s.ths.set i .lGo })
  /-- a thread stores a byte in a block -/
  | write (b : Blk) (k : Nat) (v : UInt8) (hb : b ∈ s.owned) (hk : k < b.n) :
      Step quiet s ((store s.st (b.p + k) [v]).bind fun st => .ok { s with st := st })

/-- The tracker has just been switched on; `n` threads, nothing allocated. -/
def Start (n : Nat) (s : Sys) : Prop :=
  (∃ mem, trackerInit (Allocator.start mem) true true = .ok s.st) ∧ s.ths = List.replicate n (.ret .unit) ∧
    s.owned = [] ∧ s.lock = none

/-- States reached in any number of steps. -/
inductive Reach (quiet : Bool) (n : Nat) : Sys → Prop
  | start (s : Sys) (h : Start n s) : Reach quiet n s
  | step (s s' : Sys) (h : Reach quiet n s) (hs : Step quiet s (.ok s')) : Reach quiet n s'

end Verif.AllocMt
