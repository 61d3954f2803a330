import Verif.TimeUtil.Spec
import Verif.Strings.Model

/-! # What a log line looks like -/
namespace Verif.Xlog.Spec

/-- `s`, padded on the right with spaces to `n` characters. -/
def padR (n : Nat) (s : List Byte) : List Byte := s ++ List.replicate (n - s.length) 32

/-- `s`, padded on the left with spaces to `n` characters. -/
def padL (n : Nat) (s : List Byte) : List Byte := List.replicate (n - s.length) 32 ++ s

/-- V, D, I, W, E; `?` for the level behind ERROR. -/
def letter : Nat → Byte
  | 1 => 86
  | 2 => 68
  | 3 => 73
  | 4 => 87
  | 5 => 69
  | 6 => 63
  | _ => 48

/-- ` I/tag     `: at most 22 characters of the tag, at least 8 columns. -/
def levelTag (level : Nat) (tag : List Byte) : List Byte := [32, letter level, 47] ++ padR 8 (tag.take 22)

/-- The decimal digits of the thread number; nothing for 0. -/
def tidDigits (tid : Int) : List Byte := if tid = 0 then [] else Strings.decText tid.natAbs

/-- `(  123)`: the last five digits. -/
def tidText (tid : Int) : List Byte :=
  [40] ++ padL 5 ((tidDigits tid).drop ((tidDigits tid).length - 5)) ++ [41]

/-- The three parts, and `: ` if there is any. -/
def header (ts tag tid : List Byte) : List Byte :=
  if ts ++ tag ++ tid = [] then [] else ts ++ tag ++ tid ++ [58, 32]

/-- `(func:line) ` -/
def traceText (func : List Byte) (line : Nat) : List Byte := [40] ++ func ++ [58] ++ Strings.decText line ++ [41, 32]

/-- The header for the target and format sets (bit 2 of the target: console, bit 3: callback; bit 1 of the
format: time, bit 2: tag and level, bit 3: thread); there is none if nobody would see it. -/
def lineHeader (target format : Nat) (stamp : List Byte) (level : Nat) (tag : List Byte) (tid : Int) : List Byte :=
  if target.testBit 2 ∨ target.testBit 3 then
    header (if format.testBit 1 then stamp else []) (if format.testBit 2 then levelTag level tag else [])
      (if format.testBit 3 then tidText tid else [])
  else []

/-- Function and line, if given. -/
def lineTrace (func : Option (List Byte)) (line : Int) : List Byte :=
  match func with
  | none => []
  | some f => if line > 0 then traceText f line.toNat else []

/-- A level below the trigger level is raised to it. -/
def raised (trigger level : Nat) : Nat := max trigger level

end Verif.Xlog.Spec
