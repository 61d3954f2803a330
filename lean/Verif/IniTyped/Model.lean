import Verif.IniParser.Model
import Verif.StrParams.Model
/-!
# Model of the typed getters, files and `is_file_path` of `/repo/src/file/ini_parser.c`

Over the parser of `Verif.IniParser.Model`.  Simplifications: `strtod` and `strtof` are parameters (any functions that
return a value and the unread rest of the text); `strtoll(.., 0)` is `StrParams.strtol0` (`long` and `long long` have 64
bits, as on the project's Linux and Android 64-bit targets); one file at a time: its bytes, or none.  Handles are never NULL.
-/
namespace Verif.IniTyped
open Verif.IniParser

/-- What the getter writes through `value`. -/
inductive Cell (D F : Type)
  | bool (b : Bool)
  | double (x : D)
  | float (x : F)
  | int (i : Int)
  | long (i : Int)
  | longLong (i : Int)
  deriving DecidableEq, Repr

/-- ini_parser.c 14-22 `INI_VALUE_TYPE`. -/
inductive Ty
  | bool | double | float | int | long | longLong
  deriving DecidableEq, Repr

/-- The C library: `strtod`, `strtof` (value, rest of the text). -/
structure Lib (D F : Type) where
  strtod : List Byte → D × List Byte
  strtof : List Byte → F × List Byte

/-- `0 == strncasecmp(a, w, n)` in the "C" locale; the end of the list is the terminating NUL. -/
def strncasecmp0 : Nat → List Byte → List Byte → Bool
  | 0, _, _ => true
  | n + 1, a :: as, w :: ws => lower a == lower w && strncasecmp0 n as ws
  | _ + 1, [], [] => true
  | _ + 1, _, _ => false

/-- Conversion of a `long long` to `int` (gcc, clang: modulo 2^32). -/
def toInt (n : Int) : Int := (n + 2 ^ 31) % 2 ^ 32 - 2 ^ 31

/-- ini_parser.c 640-646 `parse_str2longlong`: the number and the code. -/
def str2ll (t : List Byte) : Int × Code :=
  ((StrParams.strtol0 t).1, if (StrParams.strtol0 t).2 ≠ [] then .failed else .succeed)

/-- ini_parser.c 671-704: the boolean (always stored) and the code. -/
def str2bool (t : List Byte) : Bool × Code :=
  if strncasecmp0 4 t [116, 114, 117, 101] then (true, .succeed)
  else if strncasecmp0 5 t [102, 97, 108, 115, 101] then (false, .succeed)
  else if strncasecmp0 3 t [121, 101, 115] then (true, .succeed)
  else if strncasecmp0 2 t [110, 111] then (false, .succeed)
  else if (str2ll t).2 = .succeed then (if toInt (str2ll t).1 = 0 then false else true, .succeed)
  else (false, (str2ll t).2)

/-- ini_parser.c 648-726 `ini_parser_get_value`: what is stored through `value` (`none`: untouched) and the code. -/
def getValue {D F : Type} (lib : Lib D F) (p : Parser) (section_ key : Option (List Byte)) (ty : Ty) :
    Option (Option (Cell D F) × Code) :=
  match getString p section_ key (some (List.replicate 256 0)) 256 with
  | none => none
  | some (none, _) => none
  | some (some buf, c) =>
    if c ≠ .succeed then some (none, c)
    else
      match buf.cstr 0 with
      | none => none
      | some t =>
        if t = [] then some (none, .failed)
        else
          match ty with
          | .bool => some (some (.bool (str2bool t).1), (str2bool t).2)
          | .double => some (if (lib.strtod t).2 ≠ [] then (none, .failed) else (some (.double (lib.strtod t).1), .succeed))
          | .float => some (if (lib.strtof t).2 ≠ [] then (none, .failed) else (some (.float (lib.strtof t).1), .succeed))
          | .int => some (some (.int (toInt (str2ll t).1)), (str2ll t).2)
          | .long => some (some (.long (str2ll t).1), (str2ll t).2)
          | .longLong => some (some (.longLong (str2ll t).1), (str2ll t).2)

/-- ini_parser.c 569-572 `ini_parser_has_section_key`. -/
def hasSectionKey (p : Parser) (section_ key : Option (List Byte)) : Option Code :=
  (getString p section_ key none 0).map (·.2)

/-- ini_parser.c 574-577 `ini_parser_has_section`. -/
def hasSection (p : Parser) (section_ : Option (List Byte)) : Option Code := hasSectionKey p section_ none

/-! ### Files -/

open StringBuilder (Alloc)

/-- The answers of the system during `ini_parser_save`: does `fopen` succeed, the allocations (builder, its buffer, the
appends, `strdup`), how many bytes `fwrite` gets to the file. -/
structure SaveEnv where
  open_ : Bool
  a0 : Bool
  a1 : Alloc
  al : Nat → Alloc
  dup : Bool
  written : Nat

/-- ini_parser.c 526-542 `ini_parser_dump`: inner `none`: NULL. -/
def dump (p : Parser) (a0 : Bool) (a1 : Alloc) (al : Nat → Alloc) (dup : Bool) : Option (Option (List Byte)) :=
  match dumpIni p a0 a1 al with
  | none => none
  | some none => some none
  | some (some sb) => ((StringBuilder.toStr sb).cstr 0).map fun t => if dup then some t else none

/-- A file, and the number of `FILE*` opened and not closed. -/
structure Disk where
  file : Option (List Byte)
  handles : Nat
  deriving DecidableEq, Repr

/-- ini_parser.c 544-567 `ini_parser_save`; `path` is the text of `file_path` (`none`: NULL).  `fopen(.., "wb")` creates
the file or empties it. -/
def save (p : Parser) (path : Option (List Byte)) (e : SaveEnv) (d : Disk) : Option (Disk × Code) :=
  match path with
  | none => some (d, .invalidParam)
  | some path =>
    if path = [] then some (d, .invalidParam)
    else if !e.open_ then some (d, .invalidParam)
    else
      let d : Disk := { file := some [], handles := d.handles + 1 }
      match dump p e.a0 e.a1 e.al e.dup with
      | none => none
      | some none => some (d, .failed)
      | some (some t) =>
        if t = [] then some (d, .failed)
        else some ({ file := some (t.take e.written), handles := d.handles - 1 }, .succeed)

/-- The answers of the system during `ini_parser_parse_file`: does `fopen` succeed, does `malloc`, does `fread` deliver
everything; the reader's uninitialised line buffer. -/
structure ParseEnv where
  open_ : Bool
  mem : Bool
  read : Bool
  garbage : Mem

/-- ini_parser.c 151-194 `ini_parser_parse_file`: inner `none`: NULL. -/
def parseFile (path : Option (List Byte)) (e : ParseEnv) (d : Disk) : Option (Disk × Option Parser) :=
  match path with
  | none => some (d, none)
  | some path =>
    if path.length < 1 then some (d, none)
    else
      match d.file with
      | none => some (d, none)
      | some bytes =>
        if !e.open_ then some (d, none)
        else
          let d1 : Disk := { d with handles := d.handles + 1 }
          let closed : Disk := { d1 with handles := d1.handles - 1 }
          if bytes.length < 6 then some (closed, none)
          else if !e.mem then some (closed, none)
          else if !e.read then some (closed, none)
          else (parseStr (bytes ++ [0]) e.garbage).map fun p => (closed, p)

/-! ### `ini_parser_is_file_path` -/

/-- `isspace` of a `char` (signed) in the "C" locale; `none`: the argument is negative and not `EOF`, which is outside the
domain of `isspace`. -/
def isspaceChar (c : Byte) : Option Bool :=
  if c.toNat < 128 then some (c == 32 || (9 ≤ c && c ≤ 13))
  else if c.toNat = 255 then some false
  else none

/-- ini_parser.c 108-119: the loop over the characters. -/
def pathLoop : List Byte → Option Bool
  | [] => some true
  | c :: t =>
    match isspaceChar c with
    | none => none
    | some true => pathLoop t
    | some false => some (if c = 35 ∨ c = 91 then false else true)

/-- ini_parser.c 98-122 `ini_parser_is_file_path`. -/
def isFilePath (str : Option (List Byte)) : Option Bool :=
  match str with
  | none => some false
  | some t => if t = [] then some false else if t.contains 10 then some false else pathLoop t

end Verif.IniTyped
