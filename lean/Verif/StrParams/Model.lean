import Verif.Hashmap.Model
import Verif.Strings.Model
/-!
# Model of src/mem/str_params.c

Built on the model of hashmap.c: the map's keys and values are pointers to heap strings.  A heap string is
a block with an identity that is never reused, a text fixed when it is made (the code never writes to one)
and a liveness; freeing a dead block, and reading one, is `none`.  A key passed in by the caller is a block
of the caller, not in the list of live heap blocks.  `errno` is modelled by what `str_params_add_str` needs
of it: whether something set it to ENOMEM during the call.
-/
namespace Verif.StrParams
open Verif.Hashmap (Ptr Cfg Map Ev)

/-- Heap of C strings (see above). -/
structure Heap where
  txt : Ptr → List Byte
  live : List Ptr
  next : Ptr

/-- A string of the caller. -/
def Heap.name (h : Heap) (s : List Byte) : Ptr × Heap :=
  (h.next, { h with txt := fun p => if p = h.next then s else h.txt p, next := h.next + 1 })

/-- Successful `strdup(s)`. -/
def Heap.dup (h : Heap) (s : List Byte) : Ptr × Heap :=
  (h.next, { txt := fun p => if p = h.next then s else h.txt p, live := h.next :: h.live,
             next := h.next + 1 })

/-- `free(p)`. -/
def Heap.free (h : Heap) (p : Ptr) : Option Heap :=
  if p ∈ h.live then some { h with live := h.live.erase p } else none

/-- The frees made by the map through the callbacks given in str_params.c 59. -/
def Heap.applyEvs : Heap → List Ev → Option Heap
  | h, [] => some h
  | h, .freeKey p :: es => (h.free p).bind fun h => h.applyEvs es
  | h, .freeVal p :: es => (h.free p).bind fun h => h.applyEvs es
  | h, _ :: es => h.applyEvs es

/-- str_params.c 45-53: `str_hash_fn`; `*p` is a signed char, the sum is in `uint32_t`. -/
def strHash (s : List Byte) : BitVec 32 :=
  s.foldl (fun h c => ((h <<< 5) + h) + c.toBitVec.signExtend 32) 5381

/-- str_params.c 59: the map's callbacks (`str_hash_fn`, `free`, `free`, `str_eq`, no lock). -/
def cfg (h : Heap) : Cfg where
  fnHash p := strHash (h.txt p)
  fnEq p q := h.txt p == h.txt q
  keyFree := true
  valFree := true
  lock := false

/-- str_params.c 30-34, and the heap. -/
structure St where
  map : Map
  delim : List Byte
  heap : Heap

/-- str_params.c 55-67: `str_params_create`, when the struct's allocation succeeds; `ok1`, `ok2` the answers
to the map's two allocations.  `delimiter` has room for one character. -/
def create (delim : Option (List Byte)) (ok1 ok2 : Bool) : Option (Option St) :=
  match Hashmap.create 16 ok1 ok2 with
  | none => none
  | some none => some none
  | some (some m) =>
    some (some { map := m, delim := (delim.getD [59]).take 1, heap := ⟨fun _ => [], [], 1⟩ })

/-- Are the stored keys the map compares with key `p` (same bucket, same hash) live? -/
def touchOk (h : Heap) (m : Map) (p : Ptr) : Bool :=
  ((m.buckets[Hashmap.calculateIndex m.bucketCount (Hashmap.hashKey (cfg h) p)]?).getD []).all fun e =>
    e.hash ≠ Hashmap.hashKey (cfg h) p ∨ e.key ∈ h.live

/-- `hashmap_get(params->map, key)`. -/
def lookup (s : St) (key : List Byte) : Option Ptr :=
  let n := s.heap.name key
  if touchOk n.2 s.map n.1 then (Hashmap.get (cfg n.2) s.map n.1).map (·.1) else none

/-- str_params.c 244-247: `str_params_has_key`. -/
def hasKey (s : St) (key : List Byte) : Option Bool := (lookup s key).map (fun p => p != 0)

/-- Read the string `p` points to. -/
def readStr (s : St) (p : Ptr) : Option (List Byte) :=
  if p ∈ s.heap.live then some (s.heap.txt p) else none

/-- str_params.c 249-262: `str_params_get_str`; `-ENOENT` is -2, `-ENOMEM` -12. -/
def getStr (s : St) (key : List Byte) (out : Mem) (size : Nat) : Option (Mem × Int) :=
  match lookup s key with
  | none => none
  | some 0 => some (out, -2)
  | some p =>
    match readStr s p with
    | none => none
    | some v =>
      if v.length + 1 > size then some (out, -12)
      else (Strings.strlcpy out (v ++ [0]) size).map fun r => (r.1, 0)

/-- str_params.c 69-72: `str_params_del`. -/
def del (s : St) (key : List Byte) : Option St :=
  let n := s.heap.name key
  if touchOk n.2 s.map n.1 then
    match Hashmap.remove (cfg n.2) s.map n.1 with
    | none => none
    | some (m, _, evs) => (n.2.applyEvs evs).map fun h => { s with map := m, heap := h }
  else none

/-- str_params.c 74-83: `str_params_destroy`; the heap afterwards. -/
def destroy (s : St) : Option Heap :=
  match Hashmap.free (cfg s.heap) s.map with
  | none => none
  | some evs => s.heap.applyEvs evs

/-- The environment's answers to the allocations of one `str_params_add_str`: the two `strdup`, the map
entry, the growth of the table. -/
structure Oks where
  key : Bool
  val : Bool
  entry : Bool
  grow : Bool
deriving DecidableEq, Repr

/-- Did `hashmap_put` (hashmap.c 262-276), when it returned NULL, leave `errno == ENOMEM`?  Either it made no
entry, or the `calloc` for the bigger table (hashmap.c 130-137) failed: the C library sets `errno` then. -/
def putEnomem (m m' : Map) (ok : Oks) : Bool :=
  if m'.size = m.size then true
  else decide (m'.size > (m.bucketCount * 3 % 2 ^ 64) / 4) &&
    !Hashmap.callocOk ok.grow (m.bucketCount * 2 % 2 ^ 64)

/-- `hashmap_put(params->map, kp, vp)`, with the frees it does. Result: map, old value, heap. -/
def mapPut (m : Map) (h : Heap) (kp vp : Ptr) (ok : Oks) : Option (Map × Ptr × Heap) :=
  if touchOk h m kp then
    match Hashmap.put (cfg h) m kp vp ok.entry ok.grow with
    | none => none
    | some (m', old, evs) => (h.applyEvs evs).map fun h => (m', old, h)
  else none

/-- str_params.c 172-202: from `hashmap_put` on. -/
def addTail (s : St) (h : Heap) (kp vp : Ptr) (ok : Oks) : Option (St × Int) :=
  match mapPut s.map h kp vp ok with
  | none => none
  | some (m', old, h) =>
    if old = 0 then
      if putEnomem s.map m' ok then
        ((h.free kp).bind fun h => h.free vp).map fun h => ({ s with map := m', heap := h }, -12)
      else some ({ s with map := m', heap := h }, 0)
    else (h.free kp).map fun h => ({ s with map := m', heap := h }, 0)

/-- str_params.c 153-206: `str_params_add_str`. -/
def addStr (s : St) (key value : List Byte) (ok : Oks) : Option (St × Int) :=
  if ok.key = false then some (s, -12)
  else if ok.val = false then
    ((s.heap.dup key).2.free (s.heap.dup key).1).map fun h => ({ s with heap := h }, -12)
  else
    addTail s ((s.heap.dup key).2.dup value).2 (s.heap.dup key).1 ((s.heap.dup key).2.dup value).1 ok

/-! ### Text form -/

/-- str_params.c 106-130: key and value of one pair; `none` if it starts with '='. -/
def splitPair (t : List Byte) : Option (List Byte × List Byte) :=
  let k := t.takeWhile (· ≠ 61)
  if k.length = t.length then some (t, [])
  else if k.length = 0 then none
  else some (k, t.drop (k.length + 1))

/-- All allocations succeed. -/
def allOk : Oks := ⟨true, true, true, true⟩

/-- str_params.c 132: store one pair (key and value are fresh `strdup`s; the return value is ignored). -/
def putPair (s : St) (kv : List Byte × List Byte) : Option St :=
  (mapPut s.map ((s.heap.dup kv.1).2.dup kv.2).2 (s.heap.dup kv.1).1 ((s.heap.dup kv.1).2.dup kv.2).1
    allOk).map fun r => { s with map := r.1, heap := r.2.2 }

/-- str_params.c 110-137: the loop body. -/
def onePair (s : St) (t : List Byte) : Option St :=
  match splitPair t with
  | none => some s
  | some kv => putPair s kv

/-- str_params.c 104-140: the loop; `m` is the writable copy of the text, `tok` is `kvpair`.  All memory
requests succeed here (simplification: the code does not check them). -/
def parseLoop : Nat → Mem → Option Nat → Nat → St → Option St
  | 0, _, _, _, _ => none
  | fuel + 1, m, tok, save, s =>
    match tok with
    | none => some s
    | some t =>
      match m.cstr t with
      | none => none
      | some w =>
        if w = [] then some s
        else
          match onePair s w with
          | none => none
          | some s =>
            match strtokR m save s.delim with
            | none => none
            | some (m, tok, save) => parseLoop fuel m tok save s

/-- str_params.c 85-151: `str_params_create_str` (memory requests succeed). -/
def createStr (delim : Option (List Byte)) (text : List Byte) : Option St :=
  match create delim true true with
  | none => none
  | some none => none
  | some (some s) =>
    match strtokR (text ++ [0]) 0 s.delim with
    | none => none
    | some (m, tok, save) => parseLoop (text.length + 2) m tok save s

/-- str_params.c 327-352: `combine_strings` (`asprintf` succeeds).  The context is the text so far (`none` =
NULL); reading a dead string makes the whole context `none`. -/
def combine (s : St) (ctx : Option (Option (List Byte))) (k v : Ptr) :
    Bool × Option (Option (List Byte)) :=
  (true,
    match ctx, readStr s k, readStr s v with
    | some c, some k, some v =>
      some (some (c.getD [] ++ (if c.isSome then s.delim else []) ++ k ++ [61] ++ v))
    | _, _, _ => none)

/-- str_params.c 354-363: `str_params_to_str`. -/
def toStr (s : St) : Option (List Byte) :=
  match Hashmap.foreach (cfg s.heap) (combine s) s.map (some none) with
  | some (some ctx, _) => some (ctx.getD [])
  | _ => none

/-! ### Integers -/

/-- Decimal text as printed by `%ld`. -/
def decInt (n : Int) : List Byte := if n < 0 then 45 :: Strings.decText n.natAbs else Strings.decText n.natAbs

/-- str_params.c 208-219: `str_params_add_long`. -/
def addLong (s : St) (key : List Byte) (n : Int) (ok : Oks) : Option (St × Int) :=
  match Mem.snprintf (List.replicate 24 0) 0 24 (decInt n) with
  | none => none
  | some (buf, _) =>
    match buf.cstr 0 with
    | none => none
    | some v => addStr s key v ok

/-- Value of a digit in some base up to 36, as `strtol` reads it. -/
def digitVal (c : Byte) : Option Nat :=
  if 48 ≤ c.toNat ∧ c.toNat ≤ 57 then some (c.toNat - 48)
  else if 97 ≤ c.toNat ∧ c.toNat ≤ 122 then some (c.toNat - 87)
  else if 65 ≤ c.toNat ∧ c.toNat ≤ 90 then some (c.toNat - 55)
  else none

/-- Digits of `base` at the front of the string: value (from `acc`) and rest. -/
def digits (base : Nat) : Nat → List Byte → Nat × List Byte
  | acc, [] => (acc, [])
  | acc, c :: s =>
    match digitVal c with
    | some d => if d < base then digits base (acc * base + d) s else (acc, c :: s)
    | none => (acc, c :: s)

/-- Is there a digit of `base` at the front? -/
def startsDigit (base : Nat) : List Byte → Bool
  | [] => false
  | c :: _ => match digitVal c with
    | some d => decide (d < base)
    | none => false

/-- White space as `isspace` sees it in the C locale. -/
def isSpace (c : Byte) : Bool := c = 32 ∨ (9 ≤ c.toNat ∧ c.toNat ≤ 13)

/-- The magnitude part of `strtol(.., 0)`: base prefix and digits; `none` = no digits. -/
def magnitude (s : List Byte) : Option (Nat × List Byte) :=
  match s with
  | 48 :: x :: r =>
    if (x = 120 ∨ x = 88) ∧ startsDigit 16 r = true then some (digits 16 0 r)
    else some (digits 8 0 s)
  | s =>
    if startsDigit 8 s ∧ s.head? = some 48 then some (digits 8 0 s)
    else if startsDigit 10 s then some (digits 10 0 s)
    else none

/-- Clamp to the range of `long`. -/
def clampLong (n : Int) : Int := if n < -2 ^ 63 then -2 ^ 63 else if n > 2 ^ 63 - 1 then 2 ^ 63 - 1 else n

/-- `strtol(s, &end, 0)`: value and the string at `end` (the whole string if nothing was converted). -/
def strtol0 (s : List Byte) : Int × List Byte :=
  match s.dropWhile isSpace with
  | 45 :: r => match magnitude r with
    | some (v, e) => (clampLong (-(v : Int)), e)
    | none => (0, s)
  | 43 :: r => match magnitude r with
    | some (v, e) => (clampLong v, e)
    | none => (0, s)
  | r => match magnitude r with
    | some (v, e) => (clampLong v, e)
    | none => (0, s)

/-- str_params.c 264-279: `str_params_get_long`; the stored number (`none`: `*out_val` untouched) and the
result code; `-EINVAL` is -22. -/
def getLong (s : St) (key : List Byte) : Option (Option Int × Int) :=
  match lookup s key with
  | none => none
  | some 0 => some (none, -2)
  | some p =>
    match readStr s p with
    | none => none
    | some v =>
      if v = [] ∨ (strtol0 v).2 ≠ [] then some (none, -22) else some (some (strtol0 v).1, 0)

/-- str_params.c 281-290: `str_params_get_int`: the `long` is converted to `int` unchecked. -/
def getInt (s : St) (key : List Byte) : Option (Option Int × Int) :=
  (getLong s key).map fun r => (r.1.map fun n => (BitVec.ofInt 32 n).toInt, r.2)

end Verif.StrParams
