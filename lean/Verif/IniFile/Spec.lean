import Verif.IniReader.Spec
/-!
# What reading an INI file means (specification)

`IniReader.Spec.step` says what one line of text does; here: which lines a file yields.
-/
namespace Verif.IniFile.Spec
open Verif.IniReader (Handler)
open Verif.IniReader.Spec (St step lines)

/-- A line read from a file is a C string: what follows a NUL byte in it is not seen. -/
def seen (line : List Byte) : List Byte := line.takeWhile (· ≠ 0)

/-- The line was read to its end: it has its line feed, or it filled the buffer. -/
def whole (line : List Byte) : Bool := line.getLast? == some 10 || line.length == 199

/-- The lines a file yields: all of them, but without an unfinished last one if a read error comes next. -/
def delivered (content : List Byte) (fails : Bool) : List (List Byte) :=
  if fails then (lines content).filter whole else lines content

/-- Reading a sequence of lines from the beginning: first line in error (0 if none), final user state. -/
def runLines {σ : Type} (h : Handler σ) (ls : List (List Byte)) (user : σ) : Nat × σ :=
  let st := ls.foldl (step h) { sec := [], prev := [], lineno := 0, error := 0, user := user }
  (st.error, st.user)

end Verif.IniFile.Spec
