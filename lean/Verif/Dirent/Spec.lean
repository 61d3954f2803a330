import Verif.Common.Out

/-!
# Directory streams on Windows: what the user sees

The world: `GetFullPathNameW` and `FindFirstFileExW` answer as they like (any directory contents, at every call other ones), the
allocator fails when it likes, the locale converts names as it likes. A stream is a pattern (the absolute directory) and a position.
-/
namespace Verif.Dirent.Spec

/-- A `wchar_t` of Windows. -/
abbrev W := UInt16

/-- `WIN32_FIND_DATAW`: the arrays with their terminators. -/
structure FindData where
  cFileName : List W
  cAlternateFileName : List W
  attr : Nat
  deriving DecidableEq, Repr

/-- What Windows guarantees: `WCHAR[260]` and `WCHAR[14]`, terminated. -/
def FindData.Valid (d : FindData) : Prop :=
  d.cFileName.length = 260 ∧ (0 : W) ∈ d.cFileName ∧ d.cAlternateFileName.length = 14 ∧ (0 : W) ∈ d.cAlternateFileName

def FindData.name (d : FindData) : List W := d.cFileName.takeWhile (· ≠ 0)
def FindData.alt (d : FindData) : List W := d.cAlternateFileName.takeWhile (· ≠ 0)

/-- A `struct dirent` (characters: bytes) or `struct _wdirent` (characters: `W`). -/
structure Ent (α : Type) where
  name : List α
  namlen : Nat
  type : Nat
  off : Int
  ino : Int
  reclen : Nat
  deriving DecidableEq, Repr

/-- The locale, as the encodings of the characters of a string, `none` for one it cannot represent. -/
structure Locale where
  enc : List W → List (Option (List Byte))
  dec : List Byte → List (Option (List W))

/-- Second call of `GetFullPathNameW`. -/
inductive FullRes
  | path (p : List W)
  /-- The buffer is too small (someone changed the current directory in between). -/
  | need (n : Nat)
  | fail

/-- `FindFirstFileExW`: the entries the search will find, or an error code. -/
inductive FindRes
  | ok (first : FindData) (more : List FindData)
  | err (code : Nat)

/-- The answers an `opendir` gets. -/
structure OpenAns where
  dirOk : Bool
  wdirOk : Bool
  pattOk : Bool
  /-- Size wanted and result of the second call, for a name. -/
  full : List W → Nat × FullRes
  /-- For a pattern. -/
  find : List W → FindRes

/-- Calls. `wide`: of the `_w` function. -/
inductive Event
  | opendir (name : Option (List Byte)) (a : OpenAns)
  | wopendir (name : Option (List W)) (a : OpenAns)
  | readdir (p : Option Nat)
  | wreaddir (p : Option Nat)
  | closedir (wide : Bool) (p : Option Nat)
  | rewinddir (wide : Bool) (p : Option Nat) (find : List W → FindRes)
  | telldir (wide : Bool) (p : Option Nat)
  | seekdir (wide : Bool) (p : Option Nat) (loc : Int) (find : List W → FindRes)

inductive Ret
  | ptr (p : Option Nat)
  | ent (rc : Int) (e : Option (Ent Byte))
  | went (rc : Int) (e : Option (Ent W))
  | int (v : Int)
  | unit
  deriving DecidableEq

/-- Where a stream is: before the given entries, behind a `seekdir` that failed, or without a search. -/
inductive Pos
  | at (rest : List FindData)
  | stuck
  | lost

structure Stream where
  wide : Bool
  patt : List W
  pos : Pos

/-- The open streams and `errno`. -/
structure Abs where
  tab : Nat → Option Stream
  errno : Nat

def Abs.init : Abs := ⟨fun _ => none, 0⟩

def Abs.set (a : Abs) (p : Nat) (s : Option Stream) : Abs := { a with tab := fun x => if x = p then s else a.tab x }

/-! ### Names -/

/-- As many whole characters as fit; `none` if one of them cannot be represented. -/
def fit {α : Type} (limit : Nat) : List (Option (List α)) → Option (List α)
  | [] => some []
  | none :: _ => none
  | some b :: r => if b.length ≤ limit then (fit (limit - b.length) r).map (b ++ ·) else some []

/-- A string converted for an array of 261 with its terminator. -/
def convert {α : Type} (chunks : List (Option (List α))) : Option (List α) :=
  match fit 261 chunks with
  | some b => if b.length ≤ 260 then some b else none
  | none => none

/-! ### Entries -/

/-- Bernstein's hash, 31 bits. -/
def hash (d : FindData) : Int := ((d.name.foldl (fun h c => h * 33 + c.toNat) 5381 % 2 ^ 31 : Nat) : Int)

/-- The offset of what comes next; the largest `long` at the end. -/
def offset : List FindData → Int
  | [] => 2 ^ 31 - 1
  | d :: _ => hash d

/-- `DT_CHR`, `DT_DIR`, `DT_REG` -/
def type (d : FindData) : Nat := if d.attr.testBit 6 then 0x2000 else if d.attr.testBit 4 then 0x4000 else 0x8000

def wideEntry (d : FindData) (rest : List FindData) : Ent W :=
  { name := d.name, namlen := d.name.length, type := type d, off := offset rest, ino := 0, reclen := 552 }

/-- The name for the user: the file's, else its 8.3 name if it has one. -/
def shownName (loc : Locale) (d : FindData) : Option (List Byte) :=
  match convert (loc.enc d.name) with
  | some b => some b
  | none => if d.alt = [] then none else convert (loc.enc d.alt)

def byteEntry (loc : Locale) (d : FindData) (rest : List FindData) : Ent Byte :=
  match shownName loc d with
  | some b => { name := b, namlen := b.length, type := type d, off := offset rest, ino := 0, reclen := 296 }
  | none => { name := [63], namlen := 1, type := 0, off := -1, ino := 0, reclen := 0 }

/-! ### Opening -/

/-- What is searched for in a directory. -/
def pattern (path : List W) : List W :=
  if path.getLast? = some 92 ∨ path.getLast? = some 47 ∨ path.getLast? = some 58 then path ++ [42] else path ++ [92, 42]

/-- `EACCES`, `ENOTDIR`, `ENOENT` -/
def errnoOf (code : Nat) : Nat := if code = 5 then 13 else if code = 267 then 20 else 2

/-- What becomes of opening the directory with this name: the pattern and the entries, or the new `errno`. -/
inductive Opened
  | ok (patt : List W) (l : List FindData)
  | fail (errno : Option Nat)

def openWide (name : List W) (a : OpenAns) : Opened :=
  if name = [] then .fail (some 2)
  else if a.wdirOk && a.pattOk then
    match (a.full name).2 with
    | .path [] => .fail none
    | .path (c :: p) =>
      match a.find (pattern (c :: p)) with
      | .ok d r => .ok (pattern (c :: p)) (d :: r)
      | .err code => .fail (some (errnoOf code))
    | _ => .fail none
  else .fail none

def openBytes (loc : Locale) (name : List Byte) (a : OpenAns) : Opened :=
  if name = [] then .fail (some 2)
  else if a.dirOk then
    match convert (loc.dec name) with
    | some w => openWide w a
    | none => .fail none
  else .fail none

/-! ### Positions -/

/-- From the first entry with this hash on. -/
def from? (loc : Int) (l : List FindData) : Option (List FindData) :=
  match l.dropWhile (fun d => hash d ≠ loc) with
  | [] => none
  | l => some l

/-- There, or nowhere. -/
def sought : Option (List FindData) → Pos
  | some l => .at l
  | none => .stuck

def rewindPos : Pos → FindRes → Pos
  | .lost, _ => .lost
  | _, .err _ => .lost
  | .stuck, .ok _ _ => .stuck
  | .at _, .ok d r => .at (d :: r)

def seekPos (loc : Int) : Pos → FindRes → Pos
  | .lost, _ => .lost
  | _, f =>
    if loc < 0 then .stuck else
      match f with
      | .err _ => .lost
      | .ok d r => sought (from? loc (d :: r))

/-- The error of a search that was made and failed. -/
def searchErrno (old : Nat) : Pos → FindRes → Nat
  | .lost, _ => old
  | _, .err code => errnoOf code
  | _, .ok _ _ => old

/-! ### Calls -/

def opened (a : Abs) (wide : Bool) (o : Opened) (r : Ret) (a' : Abs) : Prop :=
  match o with
  | .ok patt l => ∃ p, a.tab p = none ∧ r = .ptr (some p) ∧ a' = a.set p (some ⟨wide, patt, .at l⟩)
  | .fail e => r = .ptr none ∧ a' = { a with errno := e.getD a.errno }

/-- The rest after reading one. -/
def Pos.tail : Pos → Pos
  | .at (_ :: r) => .at r
  | p => p

def Pos.head {β : Type} (f : FindData → List FindData → β) : Pos → Option β
  | .at (d :: r) => some (f d r)
  | _ => none

def Pos.isLost : Pos → Bool
  | .lost => true
  | _ => false

def Pos.tell : Pos → Int
  | .at l => offset l
  | .stuck => 2 ^ 31 - 1
  | .lost => -1

/-- What a call on an open stream, or on a null pointer (`none`), returns and does. -/
def Step (loc : Locale) (a : Abs) : Event → Ret → Abs → Prop
  | .opendir none _, r, a' => r = .ptr none ∧ a' = { a with errno := 2 }
  | .opendir (some n) ans, r, a' => opened a false (openBytes loc n ans) r a'
  | .wopendir none _, r, a' => r = .ptr none ∧ a' = { a with errno := 2 }
  | .wopendir (some n) ans, r, a' => opened a true (openWide n ans) r a'
  | .readdir none, _, _ => False
  | .readdir (some p), r, a' => ∃ s, a.tab p = some s ∧ r = .ent 0 (s.pos.head (byteEntry loc)) ∧
      a' = a.set p (some { s with pos := s.pos.tail })
  | .wreaddir none, r, a' => r = .went (-1) none ∧ a' = { a with errno := 9 }
  | .wreaddir (some p), r, a' => ∃ s, a.tab p = some s ∧ r = .went (if s.pos.isLost then -1 else 0) (s.pos.head wideEntry) ∧
      a' = { a.set p (some { s with pos := s.pos.tail }) with errno := if s.pos.isLost then 9 else a.errno }
  | .closedir _ none, r, a' => r = .int (-1) ∧ a' = { a with errno := 9 }
  | .closedir _ (some p), r, a' => r = .int 0 ∧ a' = a.set p none
  | .rewinddir _ none _, r, a' => r = .unit ∧ a' = a
  | .rewinddir _ (some p) f, r, a' => ∃ s, a.tab p = some s ∧ r = .unit ∧
      a' = { a.set p (some { s with pos := rewindPos s.pos (f s.patt) }) with errno := searchErrno a.errno s.pos (f s.patt) }
  | .telldir _ none, r, a' => r = .int (-1) ∧ a' = { a with errno := 9 }
  | .telldir _ (some p), r, a' => ∃ s, a.tab p = some s ∧ r = .int s.pos.tell ∧
      a' = { a with errno := if s.pos.isLost then 9 else a.errno }
  | .seekdir _ none _ _, r, a' => r = .unit ∧ a' = a
  | .seekdir _ (some p) l f, r, a' => ∃ s, a.tab p = some s ∧ r = .unit ∧
      a' = { a.set p (some { s with pos := seekPos l s.pos (f s.patt) }) with
        errno := if l < 0 then a.errno else searchErrno a.errno s.pos (f s.patt) }

/-- Histories. -/
inductive Run (loc : Locale) : Abs → List (Event × Ret) → Abs → Prop
  | nil {a} : Run loc a [] a
  | cons {a b c e r l} : Step loc a e r b → Run loc b l c → Run loc a ((e, r) :: l) c

/-! ### Legal use -/

def FindRes.Valid : FindRes → Prop
  | .ok d r => d.Valid ∧ ∀ e ∈ r, e.Valid
  | .err _ => True

/-- The current directory does not change between the two calls of `GetFullPathNameW`. -/
def fullValid (n : Nat) : FullRes → Prop
  | .path p => p.length < n ∧ (0 : W) ∉ p
  | .need _ => False
  | .fail => True

def OpenAns.Valid (a : OpenAns) : Prop := (∀ w, fullValid (a.full w).1 (a.full w).2) ∧ ∀ p, (a.find p).Valid

/-- The stream is open and of the kind the function is for. -/
def isOpen (a : Abs) (wide : Bool) (p : Nat) : Prop := ∃ s, a.tab p = some s ∧ s.wide = wide

/-- Calls with a defined result: on open streams; null pointers except for `readdir` and `_wseekdir`. -/
def Legal (a : Abs) : Event → Prop
  | .opendir _ ans => ans.Valid
  | .wopendir _ ans => ans.Valid
  | .readdir p => ∃ x, p = some x ∧ isOpen a false x
  | .wreaddir p => ∀ x, p = some x → isOpen a true x
  | .closedir w p => ∀ x, p = some x → isOpen a w x
  | .rewinddir w p f => (∀ x, p = some x → isOpen a w x) ∧ ∀ q, (f q).Valid
  | .telldir w p => ∀ x, p = some x → isOpen a w x
  | .seekdir w p _ f => (w = true → p ≠ none) ∧ (∀ x, p = some x → isOpen a w x) ∧ ∀ q, (f q).Valid

end Verif.Dirent.Spec
