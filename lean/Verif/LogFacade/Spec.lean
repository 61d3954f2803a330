import Verif.Slog.Spec
import Verif.Xlog.Spec
import Verif.Strings.Spec
/-!
# Specification of the logging facade: which messages of a program are shown, and what shows them

Independent of the two loggers: `shown` reads the program from its beginning.
-/
namespace Verif.LogFacade
open Slog (Lv)

/-- one message: level, tag, function and line of the `_TRACE` macros, text (the expanded format) -/
structure Msg where
  lv : Lv
  tag : List Byte
  func : Option (List Byte × Nat)
  text : List Byte
  deriving DecidableEq

/-- a program that uses the facade: `LOG_SET_MIN_LEVEL`, `TLOGx` / `TLOGx_TRACE`, `TLOGx_HEX` -/
inductive Op where
  | setLevel (l : Int)
  | log (m : Msg)
  | hex (lv : Lv) (tag bytes : List Byte)

namespace Spec

/-- the level in force after a program that starts with `min`: only arguments from 0 (OFF) to 5 (ERROR) count -/
def level (min : Int) : List Op → Int
  | [] => min
  | .setLevel l :: os => level (if 0 ≤ l ∧ l ≤ 5 then l else min) os
  | _ :: os => level min os

/-- the messages that are shown, in order, each with what its statement carries (the circumstances of the call) -/
def shown {α : Type} (min : Int) : List (Op × α) → List (Msg × α)
  | [] => []
  | (.setLevel l, _) :: os => shown (if 0 ≤ l ∧ l ≤ 5 then l else min) os
  | (.log m, w) :: os => (if min ≠ 0 ∧ min ≤ Slog.Spec.rank m.lv then [(m, w)] else []) ++ shown min os
  | (.hex lv tag bytes, w) :: os =>
    (if min ≠ 0 ∧ min ≤ Slog.Spec.rank lv then [(⟨lv, tag, none, Strings.Spec.hexDump bytes⟩, w)] else []) ++ shown min os

/-- `(func:line)` -/
def trace : Option (List Byte × Nat) → List Byte
  | none => []
  | some (f, n) => [40] ++ f ++ [58] ++ Strings.decText n ++ [41]

/-- a message of the slog build: `[L/tag](func:line) text` -/
def slogLine (m : Msg) : List Byte :=
  [91, Slog.Spec.letter m.lv, 47] ++ m.tag ++ [93] ++ trace m.func ++ [32] ++ m.text ++ [10]

/-- a message of the xlog build: `MM-DD HH:MM:SS.mmm L/tag     : (func:line) text`; of the tag at most 22 characters, in
at least 8 columns -/
def xlogLine (now : TimeUtil.Spec.Civil) (ms : Nat) (m : Msg) : List Byte :=
  TimeUtil.Spec.stampText now ms ++ [32, Slog.Spec.letter m.lv, 47] ++
    (m.tag.take 22 ++ List.replicate (8 - (m.tag.take 22).length) 32) ++ [58, 32] ++
    (match m.func with | none => [] | some _ => trace m.func ++ [32]) ++ m.text ++ [10]

end Spec
end Verif.LogFacade
