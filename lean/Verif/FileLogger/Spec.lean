import Verif.Common.Mem

/-! # Specification: log files -/
namespace Verif.FileLogger.Spec

/-- The line a message becomes: its bytes up to the first NUL, and a line end. -/
def line (d : List Byte) : List Byte := d.takeWhile (· ≠ 0) ++ [10]

/-- A file that has been given up: it has reached the limit, with its last line and not before. -/
def Full (max : Nat) (lines : List (List Byte)) : Prop :=
  max ≠ 0 ∧ lines ≠ [] ∧ max ≤ lines.flatten.length ∧ lines.dropLast.flatten.length < max

/-- The file still written to: not empty, below the limit. -/
def Growing (max : Nat) (lines : List (List Byte)) : Prop :=
  lines ≠ [] ∧ (max = 0 ∨ lines.flatten.length < max)

/-- `gs` cuts the lines into files: all but the last full, the last one full or growing. -/
def Cut (max : Nat) (lines : List (List Byte)) (gs : List (List (List Byte))) : Prop :=
  gs.flatten = lines ∧ (∀ g ∈ gs.dropLast, Full max g) ∧ ∀ g, gs.getLast? = some g → Full max g ∨ Growing max g

/-- The contents of the file `n` after files were written in turn (each replacing an older one of its name). -/
def replay (before : List Byte → Option (List Byte)) : List (List Byte × List Byte) → List Byte → Option (List Byte)
  | [], n => before n
  | (m, c) :: l, n => replay (fun n => if n = m then some c else before n) l n

end Verif.FileLogger.Spec
