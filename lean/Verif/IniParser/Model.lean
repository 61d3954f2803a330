import Verif.IniReader.Model
import Verif.StringBuilder.Model
/-!
# Model of `/repo/src/file/ini_parser.c`

Simplifications.  A `list_t` (of sections, of key/values; `src/data/list.c`, modelled in `Verif.CList`) is
a Lean list; a `key_value_t*` is its position in its section.  A `section_info_t*` is a number (the
heap address, never reused); the cached pointer `p_last_used_section` is such a number, and reading
through it after the section was freed is undefined behaviour: `none`.  The fixed arrays `section_name[64]`,
`key[64]` and `value[256]` hold what `strlcpy` leaves in them (C28): the text cut to 63 and 255 characters.
`strcasecmp` is that of the "C" locale.  C strings are lists of non-NUL bytes.  Handles are never NULL.
The numeric getters (`ini_parser_get_int` ...), `ini_parser_parse_file` and `ini_parser_save` are modelled in
`Verif.IniTyped`; `ini_parser_destroy` and the objects on the heap in `Verif.IniHeap`.
-/
namespace Verif.IniParser
open Verif.IniReader (Handler)

/-- `tolower` in the "C" locale. -/
def lower (c : Byte) : Byte := if 65 ≤ c ∧ c ≤ 90 then c + 32 else c

/-- `0 == strcasecmp(a, b)`. -/
def ciEq (a b : List Byte) : Bool := a.map lower == b.map lower

/-- ini_parser.c 30-34. -/
structure KV where
  key : List Byte
  value : List Byte
  deriving DecidableEq, Repr

/-- ini_parser.c 24-28, with the address of the object. -/
structure Sec where
  addr : Nat
  name : List Byte
  kvs : List KV
  deriving DecidableEq, Repr

/-- ini_parser.c 49-57.  `next` is the address the next section object will get. -/
structure Parser where
  secs : List Sec
  pred : Nat
  last : Option Nat
  next : Nat
  deriving DecidableEq, Repr

/-- ini_parser.c 124-137, 146-149: a new empty document. -/
def create : Parser := { secs := [], pred := 0, last := none, next := 0 }

/-- ini_parser.h 11-23 `ini_parser_code_e`. -/
inductive Code
  | succeed | failed | invalidParam | noMemory | notFound
  deriving DecidableEq, Repr

/-- Which of the allocations of one call succeed: `section_info_t`, its list, the list node, `key_value_t`,
its list node. -/
structure Allocs where
  sec : Bool
  lst : Bool
  node : Bool
  kv : Bool
  kvNode : Bool

/-- Everything succeeds. -/
def Allocs.ok : Allocs := ⟨true, true, true, true, true⟩

/-- ini_parser.c 246-251, 263-265: the first section whose name matches. -/
def searchList (secs : List Sec) (section_ : List Byte) : Option Sec :=
  secs.find? fun s => ciEq section_ s.name

/-- ini_parser.c 257-258: the section object the cached pointer points to; outer `none`: it was freed. -/
def cached (p : Parser) : Option (Option Sec) :=
  match p.last with
  | none => some none
  | some a => (p.secs.find? fun s => s.addr == a).map some

/-- ini_parser.c 253-289 `search_target_section(.., auto_create = false, ..)`: the section's address. -/
def search (p : Parser) (section_ : List Byte) : Option (Option Nat) :=
  if section_ = [] then some none
  else
    (cached p).map fun c =>
      match c.filter fun s => ciEq section_ s.name with
      | some s => some s.addr
      | none => (searchList p.secs section_).map (·.addr)

/-- ini_parser.c 266-287: append a new section. -/
def addSection (p : Parser) (section_ : List Byte) (a : Allocs) : Parser × Option Nat :=
  if !a.sec ∨ !a.lst ∨ !a.node then (p, none)
  else
    ({ secs := p.secs ++ [{ addr := p.next, name := section_.take 63, kvs := [] }]
       pred := p.pred + (section_.length + 6)
       last := some p.next
       next := p.next + 1 }, some p.next)

/-- ini_parser.c 253-289 `search_target_section(.., auto_create = true, ..)`. -/
def searchOrAdd (p : Parser) (section_ : List Byte) (a : Allocs) : Option (Parser × Option Nat) :=
  (search p section_).map fun r =>
    match r with
    | some x => (p, some x)
    | none => if section_ = [] then (p, none) else addSection p section_ a

/-- ini_parser.c 293-305: position of the first entry whose key matches. -/
def findKey (kvs : List KV) (key : List Byte) : Option Nat := kvs.findIdx? fun kv => ciEq key kv.key

/-- Replace the entries of the section at address `a`. -/
def setKvs (p : Parser) (a : Nat) (f : List KV → List KV) : Parser :=
  { p with secs := p.secs.map fun s => if s.addr = a then { s with kvs := f s.kvs } else s }

/-- The entries of the section at address `a`; `none`: no such live object. -/
def kvsAt (p : Parser) (a : Nat) : Option (List KV) := (p.secs.find? fun s => s.addr == a).map (·.kvs)

/-- ini_parser.c 307-347 `ini_parser_put_string`; `key`/`value` `none`: NULL.  A NULL `section` is undefined
behaviour (`strlen(NULL)`, 314) and not modelled. -/
def putString (p : Parser) (section_ : List Byte) (key value : Option (List Byte)) (a : Allocs) :
    Option (Parser × Code) :=
  match key with
  | none => some (p, .invalidParam)
  | some key =>
    if key = [] ∨ section_.length < 1 then some (p, .invalidParam)
    else
      match searchOrAdd p section_ a with
      | none => none
      | some (p, none) => some (p, .noMemory)
      | some (p, some x) =>
        (kvsAt p x).map fun kvs =>
          let v := (value.getD []).take 255
          match findKey kvs key with
          | some i => (setKvs p x fun kvs => kvs.modify i fun kv => { kv with value := v }, .succeed)
          | none =>
            if !a.kv then (p, .noMemory)
            else if a.kvNode then (setKvs p x fun kvs => kvs ++ [{ key := key.take 63, value := v }], .succeed)
            else (p, .failed)

/-- ini_parser.c 349-390 `ini_parser_get_string`; `buf` is the caller's array (`none`: NULL), which may be
larger than `size` says. -/
def getString (p : Parser) (section_ key : Option (List Byte)) (buf : Option Mem) (size : Nat) :
    Option (Option Mem × Code) :=
  match section_ with
  | none => some (buf, .invalidParam)
  | some section_ =>
    if section_.length = 0 then some (buf, .invalidParam)
    else
      match search p section_ with
      | none => none
      | some none => some (buf, .notFound)
      | some (some x) =>
        if key = none ∧ buf = none ∧ size = 0 then some (buf, .succeed)
        else
          match key with
          | none => some (buf, .invalidParam)
          | some key =>
            if key = [] then some (buf, .invalidParam)
            else
              match kvsAt p x with
              | none => none
              | some kvs =>
                match (findKey kvs key).bind fun i => kvs[i]? with
                | none => some (buf, .notFound)
                | some kv =>
                  match buf with
                  | none => some (buf, .succeed)
                  | some b =>
                    if size = 0 then some (buf, .succeed)
                    else if size ≤ kv.value.length then some (buf, .noMemory)
                    else (Mem.store b 0 (kv.value ++ [0])).map fun b => (some b, .succeed)

/-- ini_parser.c 393-411 `ini_parser_delete_by_section_key` (`list_remove` of an element of the list
succeeds). -/
def deleteKey (p : Parser) (section_ key : List Byte) : Option (Parser × Code) :=
  match search p section_ with
  | none => none
  | some none => some (p, .notFound)
  | some (some x) =>
    (kvsAt p x).map fun kvs =>
      match findKey kvs key with
      | none => (p, .notFound)
      | some i => (setKvs p x fun kvs => kvs.eraseIdx i, .succeed)

/-- ini_parser.c 414-427 `ini_parser_delete_section`: the section object is freed; the cached pointer is
left as it is. -/
def deleteSection (p : Parser) (section_ : List Byte) : Option (Parser × Code) :=
  (search p section_).map fun r =>
    match r with
    | none => (p, .notFound)
    | some x => ({ p with secs := p.secs.filter fun s => s.addr ≠ x }, .succeed)

/-- ini_parser.c 198-242 `ini_parser_foreach`: the calls of the user's handler, which may stop the walk
through the entries of one section by returning non-zero (and is then called again for the next
section). -/
def foreachKvs {σ : Type} (f : σ → List Byte → List Byte → List Byte → σ × Bool) (sec : List Byte) (u : σ) :
    List KV → σ
  | [] => u
  | kv :: kvs =>
    if kv.key = [] then foreachKvs f sec u kvs
    else
      let r := f u sec kv.key kv.value
      if r.2 then foreachKvs f sec r.1 kvs else r.1

/-- ini_parser.c 211-242. -/
def foreach {σ : Type} (f : σ → List Byte → List Byte → List Byte → σ × Bool) (u : σ) (p : Parser) : σ :=
  p.secs.foldl (fun u s => if s.name = [] then u else foreachKvs f s.name u s.kvs) u

/-! ### Dump -/

open StringBuilder (Sb Alloc)

/-- ini_parser.c 429-447: append `key = value\r\n` for every entry, stop on the first failure.  `al i` is the
allocator's answer to the `i`-th call of the string builder.  Result: builder, number of calls made so
far, `ret_code` (`ASSERT_ABORT(dump_ctx->ret_code)` passes, as the code is not 0). -/
def dumpKvs (al : Nat → Alloc) : Sb → Nat → List KV → Option (Sb × Nat × Int)
  | sb, n, [] => some (sb, n, 0)
  | sb, n, kv :: kvs =>
    match StringBuilder.appendf sb (some (kv.key ++ [32, 61, 32] ++ kv.value ++ [13, 10])) (al n) with
    | none => none
    | some (sb, r) => if r ≠ 0 then some (sb, n + 1, r) else dumpKvs al sb (n + 1) kvs

/-- ini_parser.c 449-465, 480: all sections; the results of the two unchecked appends are ignored. -/
def dumpSecs (al : Nat → Alloc) : Sb → Nat → Int → List Sec → Option (Sb × Int)
  | sb, _, rc, [] => some (sb, rc)
  | sb, n, rc, s :: secs =>
    if rc ≠ 0 then some (sb, rc)
    else
      match StringBuilder.appendf sb (some ([91] ++ s.name ++ [93, 13, 10])) (al n) with
      | none => none
      | some (sb, _) =>
        match dumpKvs al sb (n + 1) s.kvs with
        | none => none
        | some (sb, n, rc) =>
          match StringBuilder.appendstr sb [13, 10, 0] (al n) with
          | none => none
          | some (sb, _) => dumpSecs al sb (n + 1) rc secs

/-- ini_parser.c 467-487 `pri_dump_ini`: inner `none`: NULL. -/
def dumpIni (p : Parser) (a0 : Bool) (a1 : Alloc) (al : Nat → Alloc) : Option (Option Sb) :=
  match StringBuilder.create (p.pred + 64) a0 a1 with
  | none => none
  | some none => some none
  | some (some sb) =>
    (dumpSecs al sb 0 0 p.secs).map fun r => if r.2 ≠ 0 then none else some r.1

/-- ini_parser.c 489-524 `ini_parser_dump_to_mem(p, mem, &size)`: memory, `*mem_size_p`, code. -/
def dumpToMem (p : Parser) (mem : Mem) (size : Nat) (a0 : Bool) (a1 : Alloc) (al : Nat → Alloc) :
    Option (Mem × Nat × Code) :=
  if size < p.pred + 64 then some (mem, size, .noMemory)
  else
    match dumpIni p a0 a1 al with
    | none => none
    | some none => some (mem, size, .failed)
    | some (some sb) =>
      match (StringBuilder.toStr sb).cstr 0 with
      | none => none
      | some t =>
        if t = [] then some (mem, size, .failed)
        else if size < t.length + 1 then some (mem, size, .noMemory)
        else (Mem.store mem 0 (t ++ [0])).map fun mem => (mem, t.length + 1, .succeed)

/-! ### Parsing -/

/-- ini_parser.c 83-96 `ini_handler_cb`; the user state is the parser (`none`: undefined behaviour happened).
All allocations succeed. -/
def handlerCb : Handler (Option Parser) := fun user section_ key value =>
  match user with
  | none => (none, false)
  | some p =>
    match putString p section_ (some key) value .ok with
    | none => (none, false)
    | some (p, c) => (some p, c = .succeed)

/-- ini_parser.c 124-144 `ini_parser_parse_str`; `src` is the object holding the text, `garbage` the reader's
uninitialised line buffer.  Inner `none`: NULL. -/
def parseStr (src garbage : Mem) : Option (Option Parser) :=
  match IniReader.parseString handlerCb src garbage (some create) with
  | none => none
  | some (_, none) => none
  | some (e, some p) => some (if e ≠ 0 then none else some p)

end Verif.IniParser
