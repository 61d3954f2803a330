import Verif.StrParams.Model
/-!
# Model of str_params.c when memory requests are refused

`str_params_create_str` (str_params.c 85-151) checks the answers to its first four requests only; the copies
of keys and values, and the map's entry, are used unchecked.  Here every request has its own answer.  A
refused copy is the pointer 0 (NULL), and `str_hash_fn` of NULL (45-53: `p && *p`) is the hash of the empty
text: `txt 0` is `[]` in every heap made here.  Comparing NULL with a string (`strcmp`), and printing it
with `%s`, is `none` (undefined).
-/
namespace Verif.StrParamsOom
open Verif.Hashmap (Ptr Map Entry hashKey)
open Verif.StrParams (Heap St Oks cfg)

/-- `strdup`/`strndup` with the environment's answer. -/
def dupO (h : Heap) (t : List Byte) (ok : Bool) : Ptr × Heap := if ok then h.dup t else (0, h)

/-- hashmap.c 233-245, 263-292, 308-316: may the walk over this chain with key `p` be made?  `strcmp`
(str_params.c 36-39) is reached when the pointers differ and the hashes agree; then neither may be NULL and
the stored one must be live.  The walk stops at the first match. -/
def walkOk (h : Heap) (p : Ptr) (hash : BitVec 32) : List Entry → Bool
  | [] => true
  | e :: es =>
    if e.key = p then true
    else if e.hash ≠ hash then walkOk h p hash es
    else if e.key ∈ h.live ∧ p ≠ 0 then (if h.txt e.key = h.txt p then true else walkOk h p hash es)
    else false

/-- The chain in which `p` belongs. -/
def chainOf (h : Heap) (m : Map) (p : Ptr) : List Entry :=
  (m.buckets[Hashmap.calculateIndex m.bucketCount (hashKey (cfg h) p)]?).getD []

/-- May the map be searched for `p`? -/
def searchOk (h : Heap) (m : Map) (p : Ptr) : Bool := walkOk h p (hashKey (cfg h) p) (chainOf h m p)

/-- `hashmap_put(params->map, kp, vp)`, with the frees it does. -/
def mapPutO (m : Map) (h : Heap) (kp vp : Ptr) (ok : Oks) : Option (Map × Heap) :=
  if searchOk h m kp then
    match Hashmap.put (cfg h) m kp vp ok.entry ok.grow with
    | none => none
    | some (m', _, evs) => (h.applyEvs evs).map fun h => (m', h)
  else none

/-- str_params.c 112-135: one pair; the answers `ok` are not looked at by the code. -/
def putPairO (s : St) (kv : List Byte × List Byte) (ok : Oks) : Option St :=
  let k := dupO s.heap kv.1 ok.key
  let v := dupO k.2 kv.2 ok.val
  (mapPutO s.map v.2 k.1 v.1 ok).map fun r => { s with map := r.1, heap := r.2 }

/-- str_params.c 104-140: the loop; `n` counts the pairs stored so far (`ask n` answers the requests of the
n-th). -/
def parseLoopO (ask : Nat → Oks) : Nat → Nat → Mem → Option Nat → Nat → St → Option St
  | 0, _, _, _, _, _ => none
  | fuel + 1, n, m, tok, save, s =>
    match tok with
    | none => some s
    | some t =>
      match m.cstr t with
      | none => none
      | some w =>
        if w = [] then some s
        else
          match StrParams.splitPair w with
          | none =>
            match strtokR m save s.delim with
            | none => none
            | some (m, tok, save) => parseLoopO ask fuel n m tok save s
          | some kv =>
            match putPairO s kv (ask n) with
            | none => none
            | some s =>
              match strtokR m save s.delim with
              | none => none
              | some (m, tok, save) => parseLoopO ask fuel (n + 1) m tok save s

/-- Blocks other than the strings of the map: the object, the map, its table, the working copy. -/
inductive Blk
  | obj
  | map
  | table
  | copy
deriving DecidableEq, Repr

/-- Answers to the first four requests: `calloc` of the object (57), `malloc` of the map and `calloc` of its
table (hashmap.c 70, 90), `strdup` of the text (97). -/
structure Start where
  obj : Bool
  map : Bool
  table : Bool
  copy : Bool
deriving DecidableEq, Repr

/-- str_params.c 55-67: `str_params_create`; the object, if any, and the blocks held. -/
def createO (delim : Option (List Byte)) (st : Start) : Option (Option St × List Blk) :=
  if st.obj = false then some (none, [])
  else
    match StrParams.create delim st.map st.table with
    | none => none
    | some none => some (none, [Blk.obj].erase .obj)
    | some (some s) => some (some s, [.obj, .map, .table])

/-- str_params.c 74-83 with hashmap.c 187-200: `str_params_destroy`; the strings left, the blocks left. -/
def destroyO (s : St) (held : List Blk) : Option (Heap × List Blk) :=
  (StrParams.destroy s).map fun h => (h, ((held.erase .table).erase .map).erase .obj)

/-- str_params.c 85-151: `str_params_create_str`. -/
def createStrO (delim : Option (List Byte)) (text : List Byte) (st : Start) (ask : Nat → Oks) :
    Option (Option St × List Blk) :=
  match createO delim st with
  | none => none
  | some (none, held) => some (none, held)
  | some (some s, held) =>
    if st.copy = false then (destroyO s held).map fun r => (none, r.2)
    else
      match strtokR (text ++ [0]) 0 s.delim with
      | none => none
      | some (m, tok, save) =>
        (parseLoopO ask (text.length + 2) 0 m tok save s).map fun s =>
          (some s, (Blk.copy :: held).erase .copy)

/-- `hashmap_get(params->map, key)`. -/
def lookupO (s : St) (key : List Byte) : Option Ptr :=
  let n := s.heap.name key
  if searchOk n.2 s.map n.1 then (Hashmap.get (cfg n.2) s.map n.1).map (·.1) else none

/-- str_params.c 244-247: `str_params_has_key`. -/
def hasKeyO (s : St) (key : List Byte) : Option Bool := (lookupO s key).map (fun p => p != 0)

/-- str_params.c 249-262: `str_params_get_str`. -/
def getStrO (s : St) (key : List Byte) (out : Mem) (size : Nat) : Option (Mem × Int) :=
  match lookupO s key with
  | none => none
  | some 0 => some (out, -2)
  | some p =>
    match StrParams.readStr s p with
    | none => none
    | some v =>
      if v.length + 1 > size then some (out, -12)
      else (Strings.strlcpy out (v ++ [0]) size).map fun r => (r.1, 0)

/-! ### Text form -/

/-- What `combine_strings` works on: the text so far (`none` = NULL), how many texts it owns, how many
requests it has made. -/
structure Ctx where
  str : Option (List Byte)
  owned : Nat
  asked : Nat
deriving DecidableEq, Repr

/-- str_params.c 327-352: `combine_strings`; `ask n` answers the n-th `asprintf`, which leaves `new_str`
NULL when refused (as glibc does).  Reading a string that is not there makes the context `none`. -/
def combineO (s : St) (ask : Nat → Bool) (ctx : Option Ctx) (k v : Ptr) : Bool × Option Ctx :=
  match ctx, StrParams.readStr s k, StrParams.readStr s v with
  | some c, some k, some v =>
    let new := (c.str.getD []) ++ (if c.str.isSome then s.delim else []) ++ k ++ [61] ++ v
    let kept := if c.str.isSome then c.owned - 1 else c.owned
    if ask c.asked then (true, some ⟨some new, kept + 1, c.asked + 1⟩)
    else (false, some ⟨none, kept, c.asked + 1⟩)
  | _, _, _ => (true, none)

/-- str_params.c 354-363: `str_params_to_str`; `last` answers the final `strdup("")`.  Result: the text
(`none` = NULL) and the number of texts allocated and not freed. -/
def toStrO (s : St) (ask : Nat → Bool) (last : Bool) : Option (Option (List Byte) × Nat) :=
  match Hashmap.foreach (cfg s.heap) (combineO s ask) s.map (some ⟨none, 0, 0⟩) with
  | some (some ctx, _) =>
    match ctx.str with
    | some t => some (some t, ctx.owned)
    | none => if last then some (some [], ctx.owned + 1) else some (none, ctx.owned)
  | _ => none

end Verif.StrParamsOom
