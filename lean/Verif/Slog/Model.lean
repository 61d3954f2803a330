import Verif.Strings.Model
/-!
# `slog.c` / `slog.h` (non-Android): the simple logger

Level filter, message text, hexadecimal messages and the redirection of `stdout`.  `printf`'s expansion of the user's
format is an input (the expanded text).  Using `stdout` after it has been closed is undefined behaviour (ISO C
7.21.3p4: the pointer value is indeterminate after the file is closed): result `none`.
-/
namespace Verif.Slog

/-- the five macro families of inc/log/slog.h:64-75 -/
inductive Lv where
  | v | d | i | w | e
  deriving DecidableEq

/-- inc/log/logger_data.h:54-64: the enum constants -/
def Lv.val : Lv → Int
  | .v => 1
  | .d => 2
  | .i => 3
  | .w => 4
  | .e => 5

/-- the literal `"[V/"` etc. of the format strings, inc/log/slog.h:64-75 -/
def Lv.head : Lv → List Byte
  | .v => [91, 86, 47]
  | .d => [91, 68, 47]
  | .i => [91, 73, 47]
  | .w => [91, 87, 47]
  | .e => [91, 69, 47]

/-- `stdout` is attached to a file (named by its path; `none` = the terminal) or closed, and `g_slog.fp_out`, which is
`stdout` (`true`) or NULL: `freopen` returns its stream argument or NULL. -/
structure St where
  min : Int
  dest : Option (Option (List Byte))
  fp : Bool
  deriving DecidableEq

/-- src/log/slog.c:5, 14: program start -/
def St.init : St := ⟨1, some none, false⟩

/-- one line on a destination -/
structure Out where
  dest : Option (List Byte)
  text : List Byte
  deriving DecidableEq

/-- `slog_set_min_level`, src/log/slog.c:17-26 (its own messages go to stderr) -/
def setMinLevel (s : St) (l : Int) : St := if l < 0 ∨ l > 5 then s else { s with min := l }

/-- `printf` to `stdout` -/
def printf (s : St) (text : List Byte) : Option (List Out) :=
  match s.dest with
  | none => none
  | some d => some [⟨d, text⟩]

/-- `_SLOGx_IMPL`, inc/log/slog.h:64-68: `"[x/%s] " fmt "\n"` -/
def log (s : St) (l : Lv) (tag text : List Byte) : Option (List Out) :=
  if s.min ≠ 0 ∧ s.min ≤ l.val then printf s (l.head ++ tag ++ [93, 32] ++ text ++ [10]) else some []

/-- `_SLOGx_TRACE_IMPL`, inc/log/slog.h:70-74: `"[x/%s](%s:%d) " fmt "\n"` (line numbers are not negative) -/
def logTrace (s : St) (l : Lv) (tag func : List Byte) (lineNo : Nat) (text : List Byte) : Option (List Out) :=
  if s.min ≠ 0 ∧ s.min ≤ l.val then
    printf s (l.head ++ tag ++ [93, 40] ++ func ++ [58] ++ Strings.decText lineNo ++ [41, 32] ++ text ++ [10])
  else some []

/-- `__slog_internal_hex_print`, src/log/slog.c:80-104; `junk` is the uninitialised 256-byte array -/
def hexPrint (s : St) (l : Lv) (tag : List Byte) (chars : Mem) (count : Nat) (junk : Mem) : Option (List Out) := do
  let (buf, _) ← Strings.char2hex junk 256 chars count
  let t ← buf.cstr 0
  log s l tag t

/-- `SLOGx_HEX`, inc/log/slog.h:109-113 -/
def hex (s : St) (l : Lv) (tag : List Byte) (chars : Mem) (count : Nat) (junk : Mem) : Option (List Out) :=
  if s.min ≠ 0 ∧ s.min ≤ l.val then hexPrint s l tag chars count junk else some []

/-- `freopen(path, "w", stdout)`: closes what is open; `ok` says whether the new file can be opened -/
def freopen (s : St) (path : Option (List Byte)) (ok : Bool) : St :=
  { s with dest := if ok then some path else none, fp := s.fp }

/-- `slog_stdout2file`, src/log/slog.c:39-57; `path = none` for NULL or "".  The branch of lines 45-50 needs
`fp_out` neither NULL nor `stdout`: impossible. -/
def stdout2file (s : St) (path : Option (List Byte)) (ok : Bool) : Option St :=
  match path with
  | none => some s
  | some p => match s.dest with
    | none => none                      -- `fflush(stdout)` of a closed stream
    | some _ => some { freopen s (some p) ok with fp := ok }

/-- `slog_back2stdout`, src/log/slog.c:59-73 -/
def back2stdout (s : St) (ok : Bool) : Option St :=
  if s.fp = false then some s
  else match s.dest with
    | none => none                      -- `fflush(g_slog.fp_out)` of a closed stream
    | some _ =>
      let s := { s with dest := none }  -- `fclose(g_slog.fp_out)`, which is `stdout`
      let s := { s with fp := false }
      match s.dest with
      | none => none                    -- `freopen(.., stdout)`: the closed stream is used
      | some _ => some (freopen s none ok)

/-- a call -/
inductive Op where
  | setLevel (l : Int)
  | log (l : Lv) (tag text : List Byte)
  | logTrace (l : Lv) (tag func : List Byte) (lineNo : Nat) (text : List Byte)
  | hex (l : Lv) (tag : List Byte) (chars : Mem) (count : Nat) (junk : Mem)
  | toFile (path : Option (List Byte)) (ok : Bool)
  | back (ok : Bool)

def step (s : St) : Op → Option (St × List Out)
  | .setLevel l => some (setMinLevel s l, [])
  | .log l tag text => (log s l tag text).map fun o => (s, o)
  | .logTrace l tag func n text => (logTrace s l tag func n text).map fun o => (s, o)
  | .hex l tag chars count junk => (hex s l tag chars count junk).map fun o => (s, o)
  | .toFile p ok => (stdout2file s p ok).map fun s => (s, [])
  | .back ok => (back2stdout s ok).map fun s => (s, [])

/-- a history of calls from program start: final state and everything printed -/
def run (s : St) : List Op → Option (St × List Out)
  | [] => some (s, [])
  | o :: os => (step s o).bind fun (s, x) => (run s os).map fun (s, y) => (s, x ++ y)

end Verif.Slog
