import Verif.Slog.Model
/-! # Specification of the simple logger: who is printed, what a line looks like, where it goes -/
namespace Verif.Slog.Spec

/-- the level in force after a history of `slog_set_min_level` arguments: the last one between 0 (OFF) and 5 (ERROR),
initially 1 (VERBOSE) -/
def levelAfter (sets : List Int) : Int := ((sets.filter fun l => 0 ≤ l ∧ l ≤ 5).getLast?).getD 1

/-- OFF is 0; VERBOSE, DEBUG, INFO, WARN, ERROR are 1 to 5 -/
def rank : Lv → Int
  | .v => 1 | .d => 2 | .i => 3 | .w => 4 | .e => 5

/-- the letters V D I W E -/
def letter : Lv → Byte
  | .v => 86 | .d => 68 | .i => 73 | .w => 87 | .e => 69

/-- a message of level `l` is wanted -/
def wanted (min l : Int) : Prop := min ≠ 0 ∧ min ≤ l

/-- `[L/tag] text\n`, with `(func:line)` behind the tag for the trace variants -/
def line (letter : Byte) (tag : List Byte) (trace : List Byte) (text : List Byte) : List Byte :=
  [91, letter, 47] ++ tag ++ [93] ++ trace ++ [32] ++ text ++ [10]

end Verif.Slog.Spec
