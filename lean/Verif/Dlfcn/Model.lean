import Verif.Common.CStr
/-!
# Model of `/repo/src/sys/dlfcn_windows.c` 79-563: `dlopen`, `dlclose`, `dlsym`, `dlerror`

The list of local objects is the real doubly linked list in a heap: address 0 is the static `first_object`, a NULL pointer is
`none`, an access to an address that is not allocated is undefined behaviour: the whole call is `none`.  Loops have fuel (one
more than the number of objects ever allocated); running out of it (a circular list) also is `none`.

Windows is modelled by the list of loaded modules in load order (the order of `EnumProcessModules`), each with the number of
loads by `dlopen` not yet undone and whether something else (the program, another library) keeps it.  Its free choices (which
module a file name denotes, which libraries come along, which go) and failures are in the arguments.  A `HMODULE` is a number
(NULL is 0, `RTLD_DEFAULT` is 0, `RTLD_NEXT` is -1, here the separate constructor `Handle.next`).  Not modelled: `dladdr` (565-),
`SetErrorMode`, threads (the code disclaims thread safety).
-/
namespace Verif.Dlfcn

/-- dlfcn_windows.c 79-83 `local_object`. -/
structure Node where
  hModule : Nat
  previous : Option Nat
  next : Option Nat
  deriving DecidableEq, Repr

/-- The heap of `local_object`s, and the number of objects allocated so far (addresses are not reused). -/
structure Heap where
  at_ : Nat → Option Node
  count : Nat

/-- dlfcn_windows.c 85: only `first_object`, all zero. -/
def Heap.init : Heap := { at_ := fun a => if a = 0 then some ⟨0, none, none⟩ else none, count := 0 }

/-- Store or free an object. -/
def Heap.set (h : Heap) (a : Nat) (n : Option Node) : Heap := { h with at_ := fun b => if b = a then n else h.at_ b }

/-- dlfcn_windows.c 95-99: the loop of `local_search`. -/
def searchLoop (h : Heap) (m : Nat) : Nat → Option Nat → Option (Option Nat)
  | 0, _ => none
  | _ + 1, none => some none
  | f + 1, some a =>
    match h.at_ a with
    | none => none
    | some n => if n.hModule = m then some (some a) else searchLoop h m f n.next

/-- dlfcn_windows.c 88-100 `local_search`. -/
def localSearch (h : Heap) (m : Nat) : Option (Option Nat) :=
  if m = 0 then some none else searchLoop h m (h.count + 2) (some 0)

/-- dlfcn_windows.c 116: the last object. -/
def tailLoop (h : Heap) : Nat → Nat → Option Nat
  | 0, _ => none
  | f + 1, a =>
    match h.at_ a with
    | none => none
    | some n =>
      match n.next with
      | none => some a
      | some b => tailLoop h f b

/-- dlfcn_windows.c 102-129 `local_add`; `mem`: `malloc` succeeds. -/
def localAdd (h : Heap) (m : Nat) (mem : Bool) : Option (Heap × Bool) :=
  if m = 0 then some (h, true)
  else
    match localSearch h m with
    | none => none
    | some (some _) => some (h, true)
    | some none =>
      match tailLoop h (h.count + 2) 0 with
      | none => none
      | some p =>
        if !mem then some (h, false)
        else
          match h.at_ p with
          | none => none
          | some pn =>
            let a := h.count + 1
            some (({ h with count := h.count + 1 }.set p (some { pn with next := some a })).set a (some ⟨m, some p, none⟩), true)

/-- dlfcn_windows.c 143-144: `pobject->next->previous = pobject->previous`. -/
def unlinkNext (h : Heap) (n : Node) : Option Heap :=
  match n.next with
  | none => some h
  | some b => (h.at_ b).map fun bn => h.set b (some { bn with previous := n.previous })

/-- dlfcn_windows.c 145-146: `pobject->previous->next = pobject->next`. -/
def unlinkPrev (h : Heap) (n : Node) : Option Heap :=
  match n.previous with
  | none => some h
  | some b => (h.at_ b).map fun bn => h.set b (some { bn with next := n.next })

/-- dlfcn_windows.c 131-149 `local_rem`; `free` of `first_object` (not from `malloc`) is undefined. -/
def localRem (h : Heap) (m : Nat) : Option Heap :=
  if m = 0 then some h
  else
    match localSearch h m with
    | none => none
    | some none => some h
    | some (some a) =>
      match h.at_ a with
      | none => none
      | some n =>
        match unlinkNext h n with
        | none => none
        | some h =>
          match h.at_ a with
          | none => none
          | some n =>
            match unlinkPrev h n with
            | none => none
            | some h => if a = 0 ∨ h.at_ a = none then none else some (h.set a none)

/-! ### Error text -/

/-- dlfcn_windows.c 160-198 `save_err_str`: the new contents of `error_buffer` (`buf.length` is its size); `msg` is the system's
text for the code (`none`: `FormatMessageA` fails; it also fails if the text does not fit). -/
def saveErr (buf : Mem) (str : List Byte) (msg : Option (List Byte)) : Option Mem := do
  let len := if str.length > buf.length - 5 then buf.length - 5 else str.length
  let buf ← Mem.store buf 0 [34]
  let buf ← Mem.store buf 1 (str.take len)
  let pos := 1 + len
  let buf ← Mem.store buf pos [34, 58, 32]
  let pos := pos + 3
  let m := (msg.filter fun m => pos + m.length + 1 ≤ buf.length).getD []
  let buf ← (if m = [] then some buf else Mem.store buf pos (m ++ [0]))
  let pos := pos + m.length
  let buf ← (if m = [] then Mem.store buf pos [0] else some buf)
  if pos > 1 then
    let two ← Mem.load buf (pos - 2) 2
    if two = [13, 10] then Mem.store buf (pos - 2) [0] else some buf
  else some buf

/-- A hexadecimal digit, dlfcn_windows.c 212. -/
def hexDigit (n : Nat) : Byte := UInt8.ofNat (if n < 10 then n + 48 else n + (65 - 10))

/-- dlfcn_windows.c 200-217: the text of a 64-bit pointer. -/
def ptrText (p : Nat) : List Byte :=
  ([48, 120] : List Byte) ++ (List.range 16).map fun i => hexDigit ((p >>> (64 - 4 * (i + 1))) % 16)

/-! ### Windows -/

/-- A loaded module. -/
structure Mod where
  h : Nat
  /-- loads by `dlopen` not yet undone -/
  exp : Nat
  /-- kept by the program or another library -/
  imp : Bool
  deriving DecidableEq, Repr

/-- The outcome of `LoadLibraryExA`: the module, and the modules it needs. -/
structure Load where
  h : Nat
  deps : List Nat

def loaded (ms : List Mod) (h : Nat) : Bool := ms.any fun m => m.h == h

/-- A library needed by another is loaded, or kept once more. -/
def addImp (ms : List Mod) (d : Nat) : List Mod :=
  if loaded ms d then ms.map fun m => if m.h = d then { m with imp := true } else m else ms ++ [⟨d, 0, true⟩]

/-- `LoadLibraryExA`. -/
def loadLibrary (ms : List Mod) (l : Load) : List Mod :=
  let ms := l.deps.foldl addImp ms
  if loaded ms l.h then ms.map fun m => if m.h = l.h then { m with exp := m.exp + 1 } else m else ms ++ [⟨l.h, 1, false⟩]

/-- `FreeLibrary`; `drops`: the libraries no longer needed when the module goes; `ans`: the answer for a module `dlopen` did not
load. -/
def freeLibrary (ms : List Mod) (h : Nat) (drops : List Nat) (ans : Bool) : List Mod × Bool :=
  match ms.find? fun m => m.h == h with
  | none => (ms, false)
  | some m =>
    if m.exp = 0 then (ms, ans)
    else
      let ms1 := ms.map fun x => if x.h = h then { x with exp := x.exp - 1 } else x
      let ms2 := if m.exp = 1 ∧ m.imp = false then ms1.map fun x => if x.h ∈ drops then { x with imp := false } else x else ms1
      (ms2.filter fun x => x.exp != 0 || x.imp, true)

/-! ### The four functions -/

/-- The state: heap of local objects, modules, `error_buffer`, `error_occurred`. -/
structure St where
  heap : Heap
  mods : List Mod
  buf : Mem
  err : Bool

/-- The system's answers during `dlopen`. -/
structure OpenEnv where
  /-- `GetModuleHandle(NULL)` -/
  main : Nat
  load : Option Load
  /-- the two calls of `EnumProcessModules` succeed -/
  en1 : Bool
  en2 : Bool
  mem : Bool
  /-- texts of the error codes: of `GetLastError()`, `ERROR_FILENAME_EXCED_RANGE`, `ERROR_NOT_ENOUGH_MEMORY` -/
  msgLast : Option (List Byte)
  msgRange : Option (List Byte)
  msgMem : Option (List Byte)
  /-- the answers to `FreeLibrary` -/
  drops : List Nat
  ans : Bool

/-- dlfcn_windows.c 346-352. -/
def backslash (file : List Byte) : List Byte := file.map fun c => if c = 47 then 92 else c

/-- `MAX_PATH`. -/
def maxPath : Nat := 260

/-- Record an error. -/
def fail (s : St) (str : List Byte) (msg : Option (List Byte)) : Option St :=
  (saveErr s.buf str msg).map fun b => { s with buf := b, err := true }

/-- dlfcn_windows.c 301-406 `dlopen(file, mode)`: state and handle (0: NULL); `isLocal`: `mode & RTLD_LOCAL`. -/
def dlopen (s : St) (file : Option (List Byte)) (isLocal : Bool) (e : OpenEnv) : Option (St × Nat) :=
  let s := { s with err := false }
  match file with
  | none => if e.main = 0 then (fail s [40, 110, 117, 108, 108, 41] e.msgLast).map fun s => (s, 0) else some (s, e.main)
  | some file =>
    if file.length ≥ maxPath then (fail s file e.msgRange).map fun s => (s, 0)
    else
      match e.load with
      | none => (fail s (backslash file) e.msgLast).map fun s => (s, 0)
      | some l =>
        let before := if e.en1 then s.mods.length else 0
        let s := { s with mods := loadLibrary s.mods l }
        let after := if e.en2 then s.mods.length else 0
        if isLocal ∧ before ≠ after then
          match localAdd s.heap l.h e.mem with
          | none => none
          | some (h, true) => some ({ s with heap := h }, l.h)
          | some (h, false) =>
            let s := { s with heap := h }
            (fail s (backslash file) e.msgMem).map fun s => ({ s with mods := (freeLibrary s.mods l.h e.drops e.ans).1 }, 0)
        else if !isLocal ∧ before = after then
          (localRem s.heap l.h).map fun h => ({ s with heap := h }, l.h)
        else some (s, l.h)

/-- dlfcn_windows.c 408-430 `dlclose`: state and result. -/
def dlclose (s : St) (handle : Nat) (drops : List Nat) (ans : Bool) (msg : Option (List Byte)) : Option (St × Int) :=
  let s := { s with err := false }
  let r := freeLibrary s.mods handle drops ans
  let s := { s with mods := r.1 }
  if r.2 then (localRem s.heap handle).map fun h => ({ s with heap := h }, 0)
  else (fail s (ptrText handle) msg).map fun s => (s, 1)

/-- What the caller passes to `dlsym`: `RTLD_NEXT` or a handle (`RTLD_DEFAULT` is handle 0). -/
inductive Handle
  | next
  | mod (h : Nat)
  deriving DecidableEq, Repr

/-- The system's answers during `dlsym`. -/
structure SymEnv where
  main : Nat
  /-- the module `dlsym` was called from (0: unknown) -/
  caller : Nat
  /-- `GetProcAddress`; 0: not found -/
  proc : Nat → List Byte → Nat
  en1 : Bool
  en2 : Bool
  mem : Bool
  msgParam : Option (List Byte)
  msgMem : Option (List Byte)
  msgProc : Option (List Byte)

/-- dlfcn_windows.c 509-526: the loop over the modules; `caller`: `hCaller` if the search is for `RTLD_NEXT` (0 once it was met). -/
def symLoop (h : Heap) (proc : Nat → List Byte → Nat) (name : List Byte) : Nat → List Nat → Option Nat
  | _, [] => some 0
  | caller, m :: ms =>
    if caller ≠ 0 then symLoop h proc name (if caller = m then 0 else caller) ms
    else
      match localSearch h m with
      | none => none
      | some (some _) => symLoop h proc name 0 ms
      | some none => if proc m name ≠ 0 then some (proc m name) else symLoop h proc name 0 ms

/-- dlfcn_windows.c 539-547: the end of `dlsym`; `msg`: text for `dwMessageId`. -/
def symEnd (s : St) (symbol : Nat) (name : List Byte) (msg : Option (List Byte)) : Option (St × Nat) :=
  if symbol = 0 then (fail s name msg).map fun s => (s, 0) else some (s, symbol)

/-- dlfcn_windows.c 502-536, 539-547: the search through all modules. -/
def symAll (s : St) (caller : Nat) (name : List Byte) (e : SymEnv) : Option (St × Nat) :=
  if !e.en1 then symEnd s 0 name e.msgProc
  else if !e.mem then symEnd s 0 name e.msgMem
  else if !e.en2 then symEnd s 0 name e.msgProc
  else
    match symLoop s.heap e.proc name caller (s.mods.map (·.h)) with
    | none => none
    | some x => symEnd s x name e.msgProc

/-- dlfcn_windows.c 432-548 `dlsym`. -/
def dlsym (s : St) (handle : Handle) (name : List Byte) (e : SymEnv) : Option (St × Nat) :=
  let s := { s with err := false }
  match handle with
  | .next => if e.caller = 0 then symEnd s 0 name e.msgParam else symAll s e.caller name e
  | .mod h =>
    let h := if h = 0 then e.main else h
    if e.proc h name ≠ 0 then some (s, e.proc h name)
    else if h = e.main then symAll s 0 name e
    else symEnd s 0 name e.msgProc

/-- dlfcn_windows.c 550-563 `dlerror`: the text at the returned pointer; inner `none`: NULL. -/
def dlerror (s : St) : Option (St × Option (List Byte)) :=
  if !s.err then some (s, none) else (s.buf.cstr 0).map fun t => ({ s with err := false }, some t)

end Verif.Dlfcn
