import Verif.Dlfcn.Model
/-!
# What `dlopen` & co. promise (specification)

`World`: the loaded modules (the Windows part of the model), which of them are private, i.e. their symbols are not to be found
through the handle of the program, and the text `dlerror` has to return next.
-/
namespace Verif.Dlfcn.Spec

structure World where
  mods : List Mod
  priv : Nat → Bool
  pending : Option (List Byte)

/-- The calls of a history. -/
inductive Call
  | dlopen (file : Option (List Byte)) (isLocal : Bool) (e : OpenEnv)
  | dlclose (h : Nat) (drops : List Nat) (ans : Bool) (msg : Option (List Byte))
  | dlsym (h : Handle) (name : List Byte) (e : SymEnv)
  | dlerror

/-- The result of a call. -/
inductive Out
  | ptr (p : Nat)
  | int (r : Int)
  | text (t : Option (List Byte))
  deriving DecidableEq, Repr

/-- The address of a symbol in the first of these modules that has it; 0: none has. -/
def lookup (proc : Nat → List Byte → Nat) (name : List Byte) : List Nat → Nat
  | [] => 0
  | m :: ms => if proc m name ≠ 0 then proc m name else lookup proc name ms

/-- The modules whose symbols are public, in load order. -/
def visible (w : World) : List Nat := (w.mods.map (·.h)).filter fun h => !w.priv h

/-- The error text: `"<argument>": <message>`, in a buffer of `cap` bytes; the message without a trailing CR LF, or nothing if
there is none or it does not fit. -/
def errorText (cap : Nat) (arg : List Byte) (msg : Option (List Byte)) : List Byte :=
  [34] ++ arg.take (cap - 5) ++ [34, 58, 32] ++
    match msg with
    | none => []
    | some m =>
      if (arg.take (cap - 5)).length + 4 + m.length + 1 ≤ cap then
        (if [13, 10].isSuffixOf m then m.take (m.length - 2) else m)
      else []

/-- The public modules loaded after the caller. -/
def visibleAfter (w : World) (caller : Nat) : List Nat :=
  (((w.mods.map (·.h)).dropWhile fun h => h != caller).drop 1).filter fun h => !w.priv h

/-- The address `dlsym` returns; 0: the symbol is not found. -/
def symbol (w : World) (h : Handle) (name : List Byte) (e : SymEnv) : Nat :=
  let avail := e.en1 && e.mem && e.en2
  match h with
  | .next => if e.caller ≠ 0 ∧ avail then lookup e.proc name (visibleAfter w e.caller) else 0
  | .mod h =>
    let h := if h = 0 then e.main else h
    if e.proc h name ≠ 0 then e.proc h name
    else if h = e.main ∧ avail then lookup e.proc name (visible w) else 0

/-- The message for a failed `dlsym`. -/
def symMsg (h : Handle) (e : SymEnv) : Option (List Byte) :=
  if h = .next ∧ e.caller = 0 then e.msgParam
  else if e.en1 = true ∧ e.mem = false ∧ (h = .next ∨ h = .mod 0 ∨ h = .mod e.main) then e.msgMem
  else e.msgProc

/-- The file name as Windows gets it. -/
def winPath (file : List Byte) : List Byte := file.map fun c => if c = 47 then 92 else c

/-- The text of a pointer: `0x` and 16 digits, upper case, most significant first. -/
def IsPtrText (p : Nat) (t : List Byte) : Prop :=
  ∃ ds : List Nat, ds.length = 16 ∧ (∀ d ∈ ds, d < 16) ∧ ds.foldl (fun a d => 16 * a + d) 0 = p % 2 ^ 64 ∧
    t = [48, 120] ++ ds.map fun d => (([48, 49, 50, 51, 52, 53, 54, 55, 56, 57, 65, 66, 67, 68, 69, 70] : List Byte)[d]?).getD 0

/-- One call.  A module loaded with `RTLD_LOCAL` that was not loaded before becomes private; `dlopen` without `RTLD_LOCAL` makes
it public for good; a module that goes away is no longer private. -/
inductive Step (cap : Nat) (w : World) : Call → World → Out → Prop
  | main {loc e} (h : e.main ≠ 0) : Step cap w (.dlopen none loc e) { w with pending := none } (.ptr e.main)
  | noMain {loc e} (h : e.main = 0) :
      Step cap w (.dlopen none loc e) { w with pending := some (errorText cap [40, 110, 117, 108, 108, 41] e.msgLast) } (.ptr 0)
  | tooLong {file loc e} (h : 260 ≤ file.length) :
      Step cap w (.dlopen (some file) loc e) { w with pending := some (errorText cap file e.msgRange) } (.ptr 0)
  | noLoad {file loc e} (h : file.length < 260) (hl : e.load = none) :
      Step cap w (.dlopen (some file) loc e) { w with pending := some (errorText cap (winPath file) e.msgLast) } (.ptr 0)
  | openGlobal {file e l} (h : file.length < 260) (hl : e.load = some l) :
      Step cap w (.dlopen (some file) false e)
        { mods := loadLibrary w.mods l, priv := fun h => h != l.h && w.priv h, pending := none } (.ptr l.h)
  | openAgain {file e l} (h : file.length < 260) (hl : e.load = some l) (ho : loaded w.mods l.h = true) :
      Step cap w (.dlopen (some file) true e) { w with mods := loadLibrary w.mods l, pending := none } (.ptr l.h)
  | openLocal {file e l} (h : file.length < 260) (hl : e.load = some l) (ho : loaded w.mods l.h = false) (hm : e.mem = true) :
      Step cap w (.dlopen (some file) true e)
        { mods := loadLibrary w.mods l, priv := fun h => h == l.h || w.priv h, pending := none } (.ptr l.h)
  | openNoMem {file e l} (h : file.length < 260) (hl : e.load = some l) (ho : loaded w.mods l.h = false) (hm : e.mem = false) :
      Step cap w (.dlopen (some file) true e)
        { w with
          mods := (freeLibrary (loadLibrary w.mods l) l.h e.drops e.ans).1
          pending := some (errorText cap (winPath file) e.msgMem) } (.ptr 0)
  | close {h drops ans msg} (hr : (freeLibrary w.mods h drops ans).2 = true) :
      Step cap w (.dlclose h drops ans msg)
        { mods := (freeLibrary w.mods h drops ans).1
          priv := fun x => w.priv x && (x != h || loaded (freeLibrary w.mods h drops ans).1 h)
          pending := none } (.int 0)
  | closeFail {h drops ans msg t} (hr : (freeLibrary w.mods h drops ans).2 = false) (ht : IsPtrText h t) :
      Step cap w (.dlclose h drops ans msg)
        { w with mods := (freeLibrary w.mods h drops ans).1, pending := some (errorText cap t msg) } (.int 1)
  | sym {h name e} (hs : symbol w h name e ≠ 0) : Step cap w (.dlsym h name e) { w with pending := none } (.ptr (symbol w h name e))
  | noSym {h name e} (hs : symbol w h name e = 0) :
      Step cap w (.dlsym h name e) { w with pending := some (errorText cap name (symMsg h e)) } (.ptr 0)
  | error : Step cap w .dlerror { w with pending := none } (.text w.pending)

/-- A text without NUL, or none. -/
def CStr (t : Option (List Byte)) : Prop := ∀ m, t = some m → (0 : Byte) ∉ m

/-- What Windows guarantees about its answers: different modules have different handles (not NULL), a module that is loaded
already brings no others along, the texts are C strings. -/
def EnvOk (w : World) : Call → Prop
  | .dlopen file _ e => CStr file ∧ CStr e.msgLast ∧ CStr e.msgRange ∧ CStr e.msgMem ∧ (file ≠ none → e.en1 = true ∧ e.en2 = true) ∧
      ∀ l, e.load = some l → l.h ≠ 0 ∧ l.h ∉ l.deps ∧ (loaded w.mods l.h = true → l.deps = [])
  | .dlclose _ _ _ msg => CStr msg
  | .dlsym _ name e => (0 : Byte) ∉ name ∧ CStr e.msgParam ∧ CStr e.msgMem ∧ CStr e.msgProc
  | .dlerror => True

/-- The call does not close a private module that stays loaded. -/
def Fine (w : World) : Call → Prop
  | .dlclose h drops ans _ => w.priv h = true → loaded (freeLibrary w.mods h drops ans).1 h = false
  | _ => True

/-- A history and its results. -/
inductive Run (cap : Nat) : World → List Call → World → List Out → Prop
  | nil {w} : Run cap w [] w []
  | cons {w c w' o cs w'' os} (h : Step cap w c w' o) (hr : Run cap w' cs w'' os) : Run cap w (c :: cs) w'' (o :: os)

/-- Every call of the history is answered by Windows as it guarantees, and none closes a private module that stays loaded;
the specification decides the state in which each call is made. -/
inductive Ok (cap : Nat) : World → List Call → Prop
  | nil {w} : Ok cap w []
  | cons {w c cs} (h1 : EnvOk w c) (h2 : Fine w c) (h3 : ∀ w' o, Step cap w c w' o → Ok cap w' cs) : Ok cap w (c :: cs)

end Verif.Dlfcn.Spec
