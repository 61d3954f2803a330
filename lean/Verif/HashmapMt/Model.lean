import Verif.Common.LockedMore
import Verif.Hashmap.Model
/-!
# Model of the hash map with a lock, under threads

src/data/hashmap.c with `lock` set.  Every call except `hashmap_size` works between `acquire` and `release`; each look at
an entry, a bucket, `size`, `bucketCount` and each assignment to them is one piece, other threads run in between.  `hashmap_size`
(247-250) reads `size` without the lock: it sees whatever is there.  The lock is a mutex (what `acquire` returns is
ignored, 56-61).  A chain of `next` pointers is a list, as in `Hashmap`; a position in it is (bucket, index).
The loops are unrolled as often as the chain is long when the loop is entered; one more round is a fault (`exec_body` shows that it
does not happen).  Simplification: while a table is being replaced (143-159) or a chain freed (168-182) the
old list stays as it is until the final assignment; nobody can look at it without the lock.
-/
namespace Verif.HashmapMt
open Verif.Locked
open Verif.Hashmap (Map Entry Cfg Ptr Ev hashKey calculateIndex equalKeys callocOk entryOk freeKeyEv freeValEv)

abbrev P := Prog Map

/-- Undefined behaviour. -/
def fail {α : Type} [Inhabited α] : P α := .act (fun _ => none) fun _ => .ret default

/-- `map->size`, `map->bucketCount`. -/
def rdSize : P Nat := read (·.size)
def rdCount : P Nat := read (·.bucketCount)

/-- How long the chain of bucket `ix` is (unrolling of the loops); faults if there is no such bucket. -/
def chainLen (ix : Nat) : P Nat := tryRead fun m => (m.buckets[ix]?).map List.length

/-- The entry at place `j` of bucket `ix`, `none`: the NULL at the end. -/
def entryAt (ix j : Nat) : P (Option Entry) := tryRead fun m => (m.buckets[ix]?).map fun ch => ch[j]?

/-- Replace the chain of bucket `ix`. -/
def onChain (ix : Nat) (f : List Entry → List Entry) : P Unit :=
  change fun m => (m.buckets[ix]?).map fun ch => { m with buckets := m.buckets.set ix (f ch) }

/-- `map->size++`. -/
def sizeUp : P Unit := do
  let s ← rdSize
  change fun m => some { m with size := (s + 1) % 2 ^ 64 }

/-- `map->size--`. -/
def sizeDown : P Unit := do
  let s ← rdSize
  change fun m => some { m with size := (s + 2 ^ 64 - 1) % 2 ^ 64 }

/-- hashmap.c 147-154: move the entries `j, …` of bucket `ix` to the new table `nb` (not shared yet). -/
def moveEntries (n ix : Nat) : Nat → Nat → List (List Entry) → P (List (List Entry))
  | 0, _, nb => return nb
  | cnt + 1, j, nb => do
    match ← entryAt ix j with
    | none => return nb
    | some e =>
      let i := calculateIndex n e.hash
      match nb[i]? with
      | none => fail
      | some b => moveEntries n ix cnt (j + 1) (nb.set i (e :: b))

/-- hashmap.c 144-155. -/
def moveBuckets (n : Nat) : Nat → Nat → List (List Entry) → P (List (List Entry))
  | 0, _, nb => return nb
  | cnt + 1, i, nb => do
    let len ← chainLen i
    let nb ← moveEntries n i len 0 nb
    moveBuckets n cnt (i + 1) nb

/-- hashmap.c 127-160 `expandIfNecessary`. -/
def expand (ok : Bool) : P Unit := do
  let s ← rdSize
  let b ← rdCount
  if s ≤ (b * 3 % 2 ^ 64) / 4 then return ()
  else
    let n := b * 2 % 2 ^ 64
    if callocOk ok n then do
      let nb ← moveBuckets n b 0 (List.replicate n [])
      change fun m => some { m with buckets := nb }
      change fun m => some { m with bucketCount := n }
    else return ()

/-- hashmap.c 268-278: the end of the chain, a new entry. -/
def insertAt (key : Ptr) (hash : BitVec 32) (value : Ptr) (ok1 ok2 : Bool) (ix j : Nat) : P (Nat × List Ev) := do
  let live ← rdSize
  if entryOk ok1 live then do
    onChain ix fun ch => ch.take j ++ [⟨key, hash, value⟩]
    sizeUp
    expand ok2
    return (0, [])
  else return (0, [])

/-- hashmap.c 263-292. -/
def putLoop (c : Cfg) (key : Ptr) (hash : BitVec 32) (value : Ptr) (ok1 ok2 : Bool) (ix : Nat) : Nat → Nat → P (Nat × List Ev)
  | fuel, j => do
    match ← entryAt ix j with
    | none => insertAt key hash value ok1 ok2 ix j
    | some e =>
      if equalKeys c e.key e.hash key hash then do
        -- 280-288
        onChain ix fun ch => ch.modify j fun e => { e with value := value }
        return (e.value, freeValEv c e.value)
      else match fuel with
        | 0 => fail
        | fuel + 1 => putLoop c key hash value ok1 ok2 ix fuel (j + 1)

/-- hashmap.c 252-295 `hashmap_put`, between `acquire` and `release`. -/
def put (c : Cfg) (key value : Ptr) (ok1 ok2 : Bool) : P (Nat × List Ev) := do
  let b ← rdCount
  let hash := hashKey c key
  let ix := calculateIndex b hash
  let len ← chainLen ix
  putLoop c key hash value ok1 ok2 ix len 0

/-- hashmap.c 308-316. -/
def getLoop (c : Cfg) (key : Ptr) (hash : BitVec 32) (ix : Nat) : Nat → Nat → P Nat
  | fuel, j => do
    match ← entryAt ix j with
    | none => return 0
    | some e =>
      if equalKeys c e.key e.hash key hash then return e.value
      else match fuel with
        | 0 => fail
        | fuel + 1 => getLoop c key hash ix fuel (j + 1)

/-- hashmap.c 297-319 `hashmap_get`. -/
def get (c : Cfg) (key : Ptr) : P (Nat × List Ev) := do
  let b ← rdCount
  let hash := hashKey c key
  let ix := calculateIndex b hash
  let len ← chainLen ix
  let v ← getLoop c key hash ix len 0
  return (v, [])

/-- hashmap.c 334-353. -/
def removeLoop (c : Cfg) (key : Ptr) (hash : BitVec 32) (ix : Nat) : Nat → Nat → P (Nat × List Ev)
  | fuel, j => do
    match ← entryAt ix j with
    | none => return (0, [])
    | some e =>
      if equalKeys c e.key e.hash key hash then do
        onChain ix fun ch => ch.eraseIdx j
        sizeDown
        return (e.value, freeKeyEv c e.key ++ freeValEv c e.value)
      else match fuel with
        | 0 => fail
        | fuel + 1 => removeLoop c key hash ix fuel (j + 1)

/-- hashmap.c 321-356 `hashmap_remove`. -/
def remove (c : Cfg) (key : Ptr) : P (Nat × List Ev) := do
  let b ← rdCount
  let hash := hashKey c key
  let ix := calculateIndex b hash
  let len ← chainLen ix
  removeLoop c key hash ix len 0

/-- hashmap.c 168-182: free the entries of bucket `ix`. -/
def clearEntries (c : Cfg) (ix : Nat) : Nat → Nat → P (List Ev)
  | 0, _ => return []
  | cnt + 1, j => do
    match ← entryAt ix j with
    | none => return []
    | some e =>
      sizeDown
      let evs ← clearEntries c ix cnt (j + 1)
      return freeKeyEv c e.key ++ freeValEv c e.value ++ evs

/-- hashmap.c 165-184. -/
def clearBuckets (c : Cfg) : Nat → Nat → P (List Ev)
  | 0, _ => return []
  | cnt + 1, i => do
    let len ← chainLen i
    let evs ← clearEntries c i len 0
    onChain i fun _ => []
    let rest ← clearBuckets c cnt (i + 1)
    return evs ++ rest

/-- hashmap.c 358-367 `hashmap_clear`. -/
def clear (c : Cfg) : P (Nat × List Ev) := do
  let b ← rdCount
  let evs ← clearBuckets c b 0
  return (0, evs)

/-- hashmap.c 378-387: one chain; the callback gets what was visited so far (by the same `hashmap_foreach`) and the pair;
`false` leaves this loop only. -/
def eachEntries (cb : List (Ptr × Ptr) → Ptr → Ptr → Bool) (ix : Nat) : Nat → Nat → List (Ptr × Ptr) → P (List (Ptr × Ptr))
  | 0, _, seen => return seen
  | cnt + 1, j, seen => do
    match ← entryAt ix j with
    | none => return seen
    | some e =>
      if cb seen e.key e.value = false then return seen ++ [(e.key, e.value)]
      else eachEntries cb ix cnt (j + 1) (seen ++ [(e.key, e.value)])

/-- hashmap.c 376-388. -/
def eachBuckets (cb : List (Ptr × Ptr) → Ptr → Ptr → Bool) : Nat → Nat → List (Ptr × Ptr) → P (List (Ptr × Ptr))
  | 0, _, seen => return seen
  | cnt + 1, i, seen => do
    let len ← chainLen i
    let seen ← eachEntries cb i len 0 seen
    eachBuckets cb cnt (i + 1) seen

/-- hashmap.c 369-390 `hashmap_foreach`. -/
def each (cb : List (Ptr × Ptr) → Ptr → Ptr → Bool) : P (Nat × List Ev) := do
  let b ← rdCount
  let seen ← eachBuckets cb b 0 []
  return (0, seen.map fun p => .visit p.1 p.2)

/-- The calls that take the lock.  The Booleans are the environment's answers to the allocations of the call. -/
inductive Op
  | put (k v : Ptr) (ok1 ok2 : Bool)
  | get (k : Ptr)
  | remove (k : Ptr)
  | clear
  | each (cb : List (Ptr × Ptr) → Ptr → Ptr → Bool)

/-- What each call does between `acquire` and `release`: result, callbacks made. -/
def body (c : Cfg) : Op → P (Nat × List Ev)
  | .put k v ok1 ok2 => put c k v ok1 ok2
  | .get k => get c k
  | .remove k => remove c k
  | .clear => clear c
  | .each cb => each cb

/-- hashmap.c 247-250 `hashmap_size`: one read, no lock. -/
def sizeCall (x : Sys Map Op (Nat × List Ev)) : Nat := x.st.size

end Verif.HashmapMt
