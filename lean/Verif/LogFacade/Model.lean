import Verif.LogFacade.Spec
import Verif.Slog.Model
import Verif.Xlog.Model
/-!
# `logger_facade.h` over its two loggers

One program, compiled with `logger_facade_slog.h` or with `logger_facade_xlog.h`.
-/
namespace Verif.LogFacade
open Slog (Lv)

/-- what the environment gives one call: xlog's time, thread and `malloc`, and the contents of the uninitialised arrays of
the two hexadecimal printers -/
structure World where
  env : Xlog.Env
  junk256 : Mem
  junk512 : Mem

/-- a C string -/
def str (s : List Byte) : Mem := s ++ [0]

/-! ### inc/log/logger_facade_slog.h -/

/-- one statement with inc/log/logger_facade_slog.h 9, 14-31 and inc/log/logger_facade.h 75, 80-109 -/
def stepS (s : Slog.St) (w : World) : Op → Option (Slog.St × List Slog.Out)
  | .setLevel l => Slog.step s (.setLevel l)
  | .log m => match m.func with
    | none => Slog.step s (.log m.lv m.tag m.text)
    | some (f, n) => Slog.step s (.logTrace m.lv m.tag f n m.text)
  | .hex lv tag bytes => Slog.step s (.hex lv tag bytes bytes.length w.junk256)

def runS (s : Slog.St) : List (Op × World) → Option (Slog.St × List Slog.Out)
  | [] => some (s, [])
  | (o, w) :: os => (stepS s w o).bind fun (s, x) => (runS s os).map fun (s, y) => (s, x ++ y)

/-! ### inc/log/logger_facade_xlog.h -/

/-- inc/log/logger_data.h:54-64, as `__xlog_internal_print` gets it -/
def lvX : Lv → Nat
  | .v => 1
  | .d => 2
  | .i => 3
  | .w => 4
  | .e => 5

/-- `_LOG_SET_MIN_LEVEL_IMPL`, inc/log/logger_facade_xlog.h 9-11 -/
def setX (c : Xlog.Cfg) (l : Int) : Option Xlog.Cfg := if l < 0 ∨ l > 6 then some c else c.set (.minLevel l)

/-- inc/log/logger_facade_xlog.h 22-32: the arguments of `__xlog_internal_print`; without `_TRACE` they are NULL and 0 -/
def callX (m : Msg) : Xlog.Call :=
  { level := lvX m.lv, tag := some (str m.tag), func := m.func.map fun f => str f.1,
    line := match m.func with | none => 0 | some f => f.2, text := some m.text }

/-- one statement with inc/log/logger_facade_xlog.h 9-11, 22-38; one thread, so the test without the lock sees the same
configuration -/
def stepX (c : Xlog.Cfg) (w : World) : Op → Option (Xlog.Cfg × List Xlog.Ev)
  | .setLevel l => (setX c l).map fun c => (c, [])
  | .log m => (Xlog.print c c w.env (callX m)).map fun e => (c, e)
  | .hex lv tag bytes =>
    (Xlog.hexPrint c c c w.env (lvX lv) (some (str tag)) bytes bytes.length w.junk512).map fun e => (c, e)

def runX (c : Xlog.Cfg) : List (Op × World) → Option (Xlog.Cfg × List Xlog.Ev)
  | [] => some (c, [])
  | (o, w) :: os => (stepX c w o).bind fun (c, x) => (runX c os).map fun (c, y) => (c, x ++ y)

/-- what is printed on the console -/
def consoles : List Xlog.Ev → List (List Byte)
  | [] => []
  | .console s :: es => s :: consoles es
  | _ :: es => consoles es

end Verif.LogFacade
