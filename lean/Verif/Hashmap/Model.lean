/-!
# Model of src/data/hashmap.c

Keys and values are pointers (`Ptr`, 0 = NULL).  The user's callbacks are a configuration record.
The `buckets` array is a list indexed with bounds checks (`none` = out-of-bounds access = UB); a
chain of `next` pointers is the list of the entries on it (simplification: entry nodes have no
addresses of their own).  `int` arithmetic in the hash is two's complement (the code itself
says it relies on wrapping, hashmap.c lines 107-110).  What the map does to the outside world is
recorded as a list of events.
-/
namespace Verif.Hashmap

/-- `void*`; 0 is NULL. -/
abbrev Ptr := Nat

/-- hashmap.c 36-43: `struct Entry` (the `next` field is the position in the chain). -/
structure Entry where
  key : Ptr
  hash : BitVec 32
  value : Ptr
deriving Repr, DecidableEq

/-- hashmap.c 48-52: the callbacks given to `hashmap_create`.  `keyFree`/`valFree`/`lock` say
whether the corresponding callback pointer is non-NULL. -/
structure Cfg where
  fnHash : Ptr → BitVec 32
  fnEq : Ptr → Ptr → Bool
  keyFree : Bool
  valFree : Bool
  lock : Bool

/-- hashmap.c 44-54: `struct Hashmap` (callbacks are in `Cfg`). -/
structure Map where
  buckets : List (List Entry)
  bucketCount : Nat
  size : Nat
deriving Repr, DecidableEq

/-- Calls the map makes to user callbacks. -/
inductive Ev
  | acquire
  | release
  | freeKey (p : Ptr)
  | freeVal (p : Ptr)
  | visit (k v : Ptr)
deriving Repr, DecidableEq

/-- hashmap.c 83-89: `bucketCount = 1; while (bucketCount <= minimum) bucketCount <<= 1` with
`size_t` arithmetic modulo 2^64.  `fuel` bounds the unrolling; running out is `none` (a diverging
loop); theorem `create_terminates` shows it never happens with 64. -/
def growCount (minimum : Nat) : Nat → Nat → Option Nat
  | 0, _ => none
  | fuel + 1, n => if n ≤ minimum then growCount minimum fuel (n * 2 % 2 ^ 64) else some n

/-- `calloc(n, 8)`: succeeds when the environment lets it (`ok`) and the product is a possible
object size (C library requirement: an overflowing product fails). -/
def callocOk (ok : Bool) (n : Nat) : Bool := ok && decide (n * 8 < 2 ^ 64)

/-- hashmap.c 63-102: `hashmap_create`.  Result: outer `none` = does not terminate, `some none` =
NULL returned.  `ok1`, `ok2`: does the environment grant the two allocations. -/
def create (cap : Nat) (ok1 ok2 : Bool) : Option (Option Map) :=
  if ok1 = false then some none
  else
    let minimum := (cap * 4 % 2 ^ 64) / 3
    match growCount minimum 65 1 with
    | none => none
    | some n =>
      if callocOk ok2 n then some (some ⟨List.replicate n [], n, 0⟩) else some none

/-- hashmap.c 110-120: `hashKey`, the user's hash followed by Doug Lea's mixing. -/
def hashKey (c : Cfg) (key : Ptr) : BitVec 32 :=
  let h := c.fnHash key
  let h := h + ~~~(h <<< 9)
  let h := h ^^^ (h >>> 14)
  let h := h + (h <<< 4)
  h ^^^ (h >>> 10)

/-- hashmap.c 122-125: `((size_t)hash) & (bucketCount - 1)`; the conversion sign-extends. -/
def calculateIndex (bucketCount : Nat) (hash : BitVec 32) : Nat :=
  (hash.signExtend 64 &&& BitVec.ofNat 64 (bucketCount - 1)).toNat

/-- hashmap.c 147-154: move one chain into the new table, pushing each entry at the head of its new
bucket. -/
def moveChain (n : Nat) : List Entry → List (List Entry) → Option (List (List Entry))
  | [], nb => some nb
  | e :: es, nb => do
    let i := calculateIndex n e.hash
    let b ← nb[i]?
    moveChain n es (nb.set i (e :: b))

/-- hashmap.c 144-155: the loop over the old buckets `i, i+1, …` (`cnt` of them). -/
def moveAll (old : List (List Entry)) (n : Nat) :
    Nat → Nat → List (List Entry) → Option (List (List Entry))
  | 0, _, nb => some nb
  | cnt + 1, i, nb => do
    let ch ← old[i]?
    let nb ← moveChain n ch nb
    moveAll old n cnt (i + 1) nb

/-- hashmap.c 127-160: `expandIfNecessary`.  `ok`: does the environment grant the new table. -/
def expandIfNecessary (m : Map) (ok : Bool) : Option Map :=
  if m.size ≤ (m.bucketCount * 3 % 2 ^ 64) / 4 then some m
  else
    let n := m.bucketCount * 2 % 2 ^ 64
    if callocOk ok n then do
      let nb ← moveAll m.buckets n m.bucketCount 0 (List.replicate n [])
      some { m with buckets := nb, bucketCount := n }
    else some m

/-- hashmap.c 233-245: `equalKeys`. -/
def equalKeys (c : Cfg) (keyA : Ptr) (hashA : BitVec 32) (keyB : Ptr) (hashB : BitVec 32) : Bool :=
  if keyA = keyB then true
  else if hashA ≠ hashB then false
  else c.fnEq keyA keyB

/-- `if (x && fn) fn(x)` for keys (hashmap.c 171-174, 340-343). -/
def freeKeyEv (c : Cfg) (k : Ptr) : List Ev := if k ≠ 0 ∧ c.keyFree = true then [.freeKey k] else []

/-- `if (x && fn) fn(x)` for values (hashmap.c 175-178, 283-286, 344-347). -/
def freeValEv (c : Cfg) (v : Ptr) : List Ev := if v ≠ 0 ∧ c.valFree = true then [.freeVal v] else []

/-- hashmap_enter / hashmap_leave (hashmap.c 56-61) around a body's events. -/
def locked (c : Cfg) (evs : List Ev) : List Ev :=
  if c.lock then [.acquire] ++ evs ++ [.release] else evs

/-- How `hashmap_put`'s loop ended: new entry, replaced value (old one), or no memory. -/
inductive PutEnd
  | inserted
  | replaced (old : Ptr)
  | nomem
deriving Repr, DecidableEq

/-- hashmap.c 263-292: walk the chain; `ok` = `createEntry`'s malloc succeeds (219-231). -/
def putWalk (c : Cfg) (ok : Bool) (key : Ptr) (hash : BitVec 32) (value : Ptr) :
    List Entry → List Entry × PutEnd
  | [] => if ok then ([⟨key, hash, value⟩], .inserted) else ([], .nomem)
  | e :: es =>
    if equalKeys c e.key e.hash key hash then ({ e with value := value } :: es, .replaced e.value)
    else
      let r := putWalk c ok key hash value es
      (e :: r.1, r.2)

/-- `createEntry`'s malloc (hashmap.c 221): granted by the environment, and impossible when 2^59
entries of at least 32 bytes already fill the address space. -/
def entryOk (ok : Bool) (live : Nat) : Bool := ok && decide (live < 2 ^ 59)

/-- hashmap.c 252-295: `hashmap_put`.  `ok1`: entry allocation, `ok2`: table growth.
Result: new map, returned pointer, events. -/
def put (c : Cfg) (m : Map) (key value : Ptr) (ok1 ok2 : Bool) : Option (Map × Ptr × List Ev) :=
  let hash := hashKey c key
  let index := calculateIndex m.bucketCount hash
  match m.buckets[index]? with
  | none => none
  | some chain =>
    match putWalk c (entryOk ok1 m.size) key hash value chain with
    | (_, .nomem) => some (m, 0, locked c [])
    | (chain', .inserted) => do
      let m' ← expandIfNecessary
        { m with buckets := m.buckets.set index chain', size := (m.size + 1) % 2 ^ 64 } ok2
      some (m', 0, locked c [])
    | (chain', .replaced old) =>
      some ({ m with buckets := m.buckets.set index chain' }, old, locked c (freeValEv c old))

/-- hashmap.c 308-316: the lookup loop. -/
def getWalk (c : Cfg) (key : Ptr) (hash : BitVec 32) : List Entry → Ptr
  | [] => 0
  | e :: es => if equalKeys c e.key e.hash key hash then e.value else getWalk c key hash es

/-- hashmap.c 297-319: `hashmap_get`. -/
def get (c : Cfg) (m : Map) (key : Ptr) : Option (Ptr × List Ev) :=
  let hash := hashKey c key
  let index := calculateIndex m.bucketCount hash
  match m.buckets[index]? with
  | none => none
  | some chain => some (getWalk c key hash chain, locked c [])

/-- hashmap.c 334-353: the removal loop; the removed entry, if any. -/
def removeWalk (c : Cfg) (key : Ptr) (hash : BitVec 32) : List Entry → List Entry × Option Entry
  | [] => ([], none)
  | e :: es =>
    if equalKeys c e.key e.hash key hash then (es, some e)
    else
      let r := removeWalk c key hash es
      (e :: r.1, r.2)

/-- hashmap.c 321-356: `hashmap_remove`. -/
def remove (c : Cfg) (m : Map) (key : Ptr) : Option (Map × Ptr × List Ev) :=
  let hash := hashKey c key
  let index := calculateIndex m.bucketCount hash
  match m.buckets[index]? with
  | none => none
  | some chain =>
    match removeWalk c key hash chain with
    | (_, none) => some (m, 0, locked c [])
    | (chain', some e) =>
      some ({ m with buckets := m.buckets.set index chain', size := (m.size + 2 ^ 64 - 1) % 2 ^ 64 },
        e.value, locked c (freeKeyEv c e.key ++ freeValEv c e.value))

/-- hashmap.c 168-182: free one chain. -/
def clearChain (c : Cfg) : List Entry → Nat → Nat × List Ev
  | [], size => (size, [])
  | e :: es, size =>
    let r := clearChain c es ((size + 2 ^ 64 - 1) % 2 ^ 64)
    (r.1, freeKeyEv c e.key ++ freeValEv c e.value ++ r.2)

/-- hashmap.c 165-184: the loop over the buckets. -/
def clearAll (c : Cfg) : Nat → Nat → Map → Option (Map × List Ev)
  | 0, _, m => some (m, [])
  | cnt + 1, i, m => do
    let ch ← m.buckets[i]?
    let r := clearChain c ch m.size
    let q ← clearAll c cnt (i + 1) { m with buckets := m.buckets.set i [], size := r.1 }
    some (q.1, r.2 ++ q.2)

/-- hashmap.c 358-367: `hashmap_clear` (with 162-185 `hashmap_clear_unsafe`). -/
def clear (c : Cfg) (m : Map) : Option (Map × List Ev) := do
  let r ← clearAll c m.bucketCount 0 m
  some (r.1, locked c r.2)

/-- hashmap.c 187-200: `hashmap_free`; afterwards the map is gone. -/
def free (c : Cfg) (m : Map) : Option (List Ev) := do
  let r ← clearAll c m.bucketCount 0 m
  some (locked c r.2)

/-- hashmap.c 378-387: visit one chain; `break` on false leaves this loop only.
The user's callback is `cb`, with private state `σ`. -/
def foreachChain {σ : Type} (cb : σ → Ptr → Ptr → Bool × σ) : List Entry → σ → σ × List Ev
  | [], st => (st, [])
  | e :: es, st =>
    let r := cb st e.key e.value
    if r.1 = false then (r.2, [.visit e.key e.value])
    else
      let q := foreachChain cb es r.2
      (q.1, .visit e.key e.value :: q.2)

/-- hashmap.c 376-388: the outer loop. -/
def foreachAll {σ : Type} (cb : σ → Ptr → Ptr → Bool × σ) (m : Map) :
    Nat → Nat → σ → Option (σ × List Ev)
  | 0, _, st => some (st, [])
  | cnt + 1, i, st => do
    let ch ← m.buckets[i]?
    let r := foreachChain cb ch st
    let q ← foreachAll cb m cnt (i + 1) r.1
    some (q.1, r.2 ++ q.2)

/-- hashmap.c 369-390: `hashmap_foreach`. -/
def foreach {σ : Type} (c : Cfg) (cb : σ → Ptr → Ptr → Bool × σ) (m : Map) (st : σ) :
    Option (σ × List Ev) := do
  let r ← foreachAll cb m m.bucketCount 0 st
  some (r.1, locked c r.2)

/-! ## Histories -/

/-- One API call. The Booleans are the environment's answers to the allocations of that call. -/
inductive Op
  | put (k v : Ptr) (ok1 ok2 : Bool)
  | get (k : Ptr)
  | remove (k : Ptr)
  | clear
  | size
deriving Repr, DecidableEq

/-- Perform one call: new map, result (a pointer, or the number for `size`), events. -/
def step (c : Cfg) (m : Map) : Op → Option (Map × Nat × List Ev)
  | .put k v ok1 ok2 => put c m k v ok1 ok2
  | .get k => (get c m k).map fun r => (m, r.1, r.2)
  | .remove k => remove c m k
  | .clear => (clear c m).map fun r => (r.1, 0, r.2)
  | .size => some (m, m.size, [])

/-- A whole history of calls: the final map and the (result, events) of each call. -/
def run (c : Cfg) : Map → List Op → Option (Map × List (Nat × List Ev))
  | m, [] => some (m, [])
  | m, o :: os => do
    let r ← step c m o
    let q ← run c r.1 os
    some (q.1, r.2 :: q.2)

end Verif.Hashmap
