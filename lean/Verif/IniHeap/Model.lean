import Verif.IniParser.Model
import Verif.IniReader.Model
/-!
# Model of src/file/ini_parser.c: the objects on the heap

`Verif.IniParser.Model` keeps the document in Lean lists.  Here every block the parser allocates is an object on a
heap: the parser, the lists, the list nodes, the sections and the entries; `malloc`/`calloc` may fail, and may return
the address of a block freed before.  Reading, writing or freeing a block that is not allocated (or is of another type)
is undefined behaviour: `none`.

Simplifications: the nodes of a list and their data pointers are kept, in order, in the object of the list header
(list.c itself, with its links, is modelled in `Verif.CList`), a node block only tells that it is allocated.  Blocks are
written as a whole (`calloc` and the stores into the new block are one step).  C strings are lists of non-NUL bytes; the
arrays hold what `strlcpy` leaves in them.  Handles are not NULL.
-/
namespace Verif.IniHeap
open Verif.IniParser (ciEq Code)

/-- 0 is NULL. -/
abbrev Addr := Nat

/-- The blocks. -/
inductive Obj where
  /-- ini_parser.c 49-57 `struct _ini_parser`: `plist_sections`, `p_last_used_section`, `prediction_str_size` -/
  | parser (root last : Addr) (pred : Nat)
  /-- list.c 16-23 `list_t`: nodes and data pointers -/
  | list (nodes : List (Addr × Addr))
  /-- list.c 10-14 `list_node_t` -/
  | node
  /-- ini_parser.c 24-28 `section_info_t` -/
  | sec (name : List Byte) (plist : Addr)
  /-- ini_parser.c 30-34 `key_value_t` -/
  | kv (key value : List Byte)
deriving DecidableEq

/-- The heap, and how often memory was asked for. -/
structure Mem where
  heap : Addr → Option Obj
  asked : Nat

/-- The allocator's answer to the `n`-th request: NULL or an address. -/
abbrev Policy := (Addr → Option Obj) → Nat → Option Addr

/-- Overwrite a cell of the heap. -/
def Mem.set (m : Mem) (a : Addr) (o : Option Obj) : Mem := { m with heap := fun x => if x = a then o else m.heap x }

/-- `calloc` (ini_parser.c 64-67, allocator.c `allocator_calloc`). -/
def alloc (pick : Policy) (m : Mem) (o : Obj) : Mem × Option Addr :=
  match pick m.heap m.asked with
  | none => ({ m with asked := m.asked + 1 }, none)
  | some a => ({ m.set a (some o) with asked := m.asked + 1 }, some a)

/-- `free` of a block. -/
def free (m : Mem) (a : Addr) : Option Mem := (m.heap a).map fun _ => m.set a none

/-- ini_parser.c 74-77 `allocator_my_free`. -/
def myFree (m : Mem) (a : Addr) : Option Mem := if a = 0 then some m else free m a

/-- Write a block. -/
def store (m : Mem) (a : Addr) (o : Obj) : Option Mem := (m.heap a).map fun _ => m.set a (some o)

/-- Read a list header. -/
def getList (m : Mem) (l : Addr) : Option (List (Addr × Addr)) :=
  match m.heap l with
  | some (.list ns) => some ns
  | _ => none

/-- Read a section. -/
def getSec (m : Mem) (a : Addr) : Option (List Byte × Addr) :=
  match m.heap a with
  | some (.sec n l) => some (n, l)
  | _ => none

/-- Read an entry. -/
def getKv (m : Mem) (a : Addr) : Option (List Byte × List Byte) :=
  match m.heap a with
  | some (.kv k v) => some (k, v)
  | _ => none

/-- Read the parser: root list, last used section, predicted size. -/
def getParser (m : Mem) (p : Addr) : Option (Addr × Addr × Nat) :=
  match m.heap p with
  | some (.parser r l n) => some (r, l, n)
  | _ => none

/-! ### list.c -/

/-- list.c 152-177 `list_append`. -/
def listAppend (pick : Policy) (m : Mem) (l d : Addr) : Option (Mem × Bool) :=
  (getList m l).bind fun ns =>
  match alloc pick m .node with
  | (m, none) => some (m, false)
  | (m, some n) => (store m l (.list (ns ++ [(n, d)]))).map fun m => (m, true)

/-- list.c 280-294 `list_free_node_` with `allocator_my_free` as callback. -/
def freeNode (m : Mem) (x : Addr × Addr) : Option Mem :=
  if m.heap x.1 = some .node then (myFree m x.2).bind fun m => free m x.1 else none

/-- list.c 217-220: all nodes. -/
def freeNodes (m : Mem) : List (Addr × Addr) → Option Mem
  | [] => some m
  | x :: xs => (freeNode m x).bind fun m => freeNodes m xs

/-- list.c 45-53, 211-224 `list_free`. -/
def listFree (m : Mem) (l : Addr) : Option Mem :=
  if l = 0 then some m
  else
    (getList m l).bind fun ns => (freeNodes m ns).bind fun m => (store m l (.list [])).bind fun m => free m l

/-- list.c 179-209 `list_remove`; simplified: all nodes are read (the code stops at the one it looks for). -/
def listRemove (m : Mem) (l d : Addr) : Option (Mem × Bool) :=
  (getList m l).bind fun ns =>
  if ns.all (fun x => decide (m.heap x.1 = some .node)) = false then none
  else
    match ns.find? fun x => decide (x.2 = d) with
    | none => some (m, false)
    | some x => (freeNode m x).bind fun m =>
        (store m l (.list (ns.eraseP fun x => decide (x.2 = d)))).map fun m => (m, true)

/-! ### ini_parser.c -/

/-- ini_parser.c 124-137: the empty parser; inner `none`: NULL. -/
def create (pick : Policy) (m : Mem) : Option (Mem × Option Addr) :=
  match alloc pick m (.list []) with
  | (m, none) => some (m, none)
  | (m, some root) =>
    match alloc pick m (.parser root 0 0) with
    | (m, none) => (listFree m root).map fun m => (m, none)
    | (m, some p) => some (m, some p)

/-- ini_parser.c 246-251, 263-264: the walk through the sections. -/
def findSec (m : Mem) (s : List Byte) : List (Addr × Addr) → Option (Option Addr)
  | [] => some none
  | x :: xs =>
    if m.heap x.1 = some .node then
      (getSec m x.2).bind fun t => if ciEq s t.1 then some (some x.2) else findSec m s xs
    else none

/-- ini_parser.c 253-265 `search_target_section`, the search; inner `none`: NULL. -/
def search (m : Mem) (p : Addr) (s : List Byte) : Option (Option Addr) :=
  if s = [] then some none
  else
    (getParser m p).bind fun t =>
    let walk := (getList m t.1).bind fun ns => findSec m s ns
    if t.2.1 = 0 then walk
    else (getSec m t.2.1).bind fun c => if ciEq s c.1 then some (some t.2.1) else walk

/-- ini_parser.c 266-287: a new section.  When the node cannot be allocated only the section is freed (282), not
its list. -/
def addSection (pick : Policy) (m : Mem) (p : Addr) (s : List Byte) : Option (Mem × Option Addr) :=
  match alloc pick m (.sec [] 0) with
  | (m, none) => some (m, none)
  | (m, some x) =>
    match alloc pick m (.list []) with
    | (m, none) => (myFree m x).map fun m => (m, none)
    | (m, some l) =>
      (store m x (.sec (s.take 63) l)).bind fun m =>
      (getParser m p).bind fun t =>
      (listAppend pick m t.1 x).bind fun r =>
      if r.2 = false then (myFree r.1 x).map fun m => (m, none)
      else (store r.1 p (.parser t.1 x (t.2.2 + (s.length + 6)))).map fun m => (m, some x)

/-- ini_parser.c 293-305: the walk through the entries. -/
def findKv (m : Mem) (key : List Byte) : List (Addr × Addr) → Option (Option Addr)
  | [] => some none
  | x :: xs =>
    if m.heap x.1 = some .node then
      (getKv m x.2).bind fun t => if ciEq key t.1 then some (some x.2) else findKv m key xs
    else none

/-- ini_parser.c 322-346: the second half of `ini_parser_put_string`. -/
def putEntry (pick : Policy) (m : Mem) (x : Addr) (key value : List Byte) : Option (Mem × Code) :=
  (getSec m x).bind fun t =>
  (getList m t.2).bind fun ns =>
  (findKv m key ns).bind fun r =>
  match r with
  | some k => (getKv m k).bind fun u => (store m k (.kv u.1 (value.take 255))).map fun m => (m, .succeed)
  | none =>
    match alloc pick m (.kv (key.take 63) (value.take 255)) with
    | (m, none) => some (m, .noMemory)
    | (m, some k) =>
      (listAppend pick m t.2 k).bind fun r =>
      if r.2 = true then some (r.1, .succeed) else (myFree r.1 k).map fun m => (m, .failed)

/-- ini_parser.c 307-347 `ini_parser_put_string`; `none` for `key`, `value`: NULL. -/
def putString (pick : Policy) (m : Mem) (p : Addr) (s : List Byte) (key value : Option (List Byte)) :
    Option (Mem × Code) :=
  match key with
  | none => some (m, .invalidParam)
  | some key =>
    if key = [] ∨ s.length < 1 then some (m, .invalidParam)
    else
      (search m p s).bind fun r =>
      match r with
      | some x => putEntry pick m x key (value.getD [])
      | none =>
        (addSection pick m p s).bind fun r =>
        match r.2 with
        | none => some (r.1, .noMemory)
        | some x => putEntry pick r.1 x key (value.getD [])

/-- ini_parser.c 349-390 `ini_parser_get_string` with a section and a key: the value found. -/
def lookup (m : Mem) (p : Addr) (s key : List Byte) : Option (Option (List Byte)) :=
  (search m p s).bind fun r =>
  match r with
  | none => some none
  | some x =>
    (getSec m x).bind fun t =>
    (getList m t.2).bind fun ns =>
    (findKv m key ns).bind fun k =>
    match k with
    | none => some none
    | some k => (getKv m k).map fun u => some u.2

/-- ini_parser.c 393-411 `ini_parser_delete_by_section_key`. -/
def deleteKey (m : Mem) (p : Addr) (s key : List Byte) : Option (Mem × Code) :=
  (search m p s).bind fun r =>
  match r with
  | none => some (m, .notFound)
  | some x =>
    (getSec m x).bind fun t =>
    (getList m t.2).bind fun ns =>
    (findKv m key ns).bind fun k =>
    match k with
    | none => some (m, .notFound)
    | some k => (listRemove m t.2 k).map fun r => (r.1, if r.2 then .succeed else .failed)

/-- ini_parser.c 414-427 `ini_parser_delete_section`. -/
def deleteSection (m : Mem) (p : Addr) (s : List Byte) : Option (Mem × Code) :=
  (search m p s).bind fun r =>
  match r with
  | none => some (m, .notFound)
  | some x =>
    (getSec m x).bind fun t =>
    (listFree m t.2).bind fun m =>
    (getParser m p).bind fun t =>
    (listRemove m t.1 x).map fun r => (r.1, if r.2 then .succeed else .failed)

/-- ini_parser.c 198-209, 218-222: the entries of a section, read by `list_foreach`. -/
def readKvs (m : Mem) : List (Addr × Addr) → Option (List (List Byte × List Byte))
  | [] => some []
  | x :: xs =>
    if m.heap x.1 = some .node then (getKv m x.2).bind fun t => (readKvs m xs).map fun ts => t :: ts else none

/-- ini_parser.c 211-242, 449-465, 480: all sections with their entries, as `ini_parser_foreach` and the dump read
them. -/
def readSecs (m : Mem) : List (Addr × Addr) → Option (List (List Byte × List (List Byte × List Byte)))
  | [] => some []
  | x :: xs =>
    if m.heap x.1 = some .node then
      (getSec m x.2).bind fun t => (getList m t.2).bind fun ns => (readKvs m ns).bind fun kvs =>
      (readSecs m xs).map fun ts => (t.1, kvs) :: ts
    else none

/-- The document as `ini_parser_foreach` reads it. -/
def readAll (m : Mem) (p : Addr) : Option (List (List Byte × List (List Byte × List Byte))) :=
  (getParser m p).bind fun t => (getList m t.1).bind fun ns => readSecs m ns

/-- ini_parser.c 609-618, 630: `list_free` for the list of every section. -/
def freeLists (m : Mem) : List (Addr × Addr) → Option Mem
  | [] => some m
  | x :: xs =>
    if m.heap x.1 = some .node then
      if x.2 = 0 then freeLists m xs
      else (getSec m x.2).bind fun t => (listFree m t.2).bind fun m => freeLists m xs
    else none

/-- ini_parser.c 620-637 `ini_parser_destroy`. -/
def destroy (m : Mem) (p : Addr) : Option Mem :=
  (getParser m p).bind fun t =>
  if t.1 = 0 then free m p
  else
    (getList m t.1).bind fun ns =>
    (freeLists m ns).bind fun m =>
    (listFree m t.1).bind fun m =>
    (store m p (.parser 0 t.2.1 t.2.2)).bind fun m => free m p

/-- ini_parser.c 83-96 `ini_handler_cb`; the user state is the memory (`none`: undefined behaviour happened). -/
def handlerCb (pick : Policy) (p : Addr) : IniReader.Handler (Option Mem) := fun user s key value =>
  match user with
  | none => (none, false)
  | some m =>
    match putString pick m p s (some key) value with
    | none => (none, false)
    | some (m, c) => (some m, c = .succeed)

/-- ini_parser.c 124-149 `ini_parser_parse_str` (`src`: the object holding the text, `none`: NULL) and
`ini_parser_create`; `garbage` is the reader's uninitialised line buffer.  Inner `none`: NULL. -/
def parseStr (pick : Policy) (m : Mem) (src : Option (List Byte)) (garbage : List Byte) : Option (Mem × Option Addr) :=
  (create pick m).bind fun r =>
  match r.2 with
  | none => some (r.1, none)
  | some p =>
    match src with
    | none => some (r.1, some p)
    | some src =>
      match IniReader.parseString (handlerCb pick p) src garbage (some r.1) with
      | none => none
      | some (_, none) => none
      | some (e, some m) => if e ≠ 0 then (destroy m p).map fun m => (m, none) else some (m, some p)

end Verif.IniHeap
