import Verif.IniReader.Model
/-!
# Model of `ini_reader_parse_stream` with any reader, `ini_reader_parse_file` and `ini_reader_parse`

`/repo/src/file/ini_reader.c` 97-269.  What is done with one line is `IniReader.handleLine` (lines 157-234);
here the loop around it is modelled for an *arbitrary* reader function, and for `fgets` on a file whose
content is any list of bytes (NUL bytes included) and whose reading may fail at any point.
Not modelled: `fgets` as the C library implements it (the contract of ISO C 7.23.7.2 is what is modelled).
-/
namespace Verif.IniFile
open Verif.IniReader

/-- ini_reader.h 54-57 `ini_reader`: `reader(line, num, stream)`: the stream's state and the buffer before;
the new contents of the buffer, whether the buffer (true) or NULL (false) is returned, and the stream's new
state.  `none`: undefined behaviour. -/
abbrev Reader (ρ : Type) := Mem → Nat → ρ → Option (Mem × Bool × ρ)

/-- ini_reader.c 136-240: the main loop.  `fuel` bounds the number of calls of the reader; the result `none`
is undefined behaviour, `some (.error _)` that `fuel` calls were not enough. -/
def streamLoop {σ ρ : Type} (h : Handler σ) (rd : Reader ρ) : Nat → ρ → St σ → Option (Except Unit (St σ × ρ))
  | 0, _, _ => some (.error ())
  | fuel + 1, r, st => do
    let (line, got, r) ← rd st.line 200 r
    if got then
      let st ← handleLine h { st with line := line }
      streamLoop h rd fuel r st
    else some (.ok (st, r))

/-- ini_reader.c 97-120, 136, 246 `ini_reader_parse_stream`: `garbage` is the uninitialised stack buffer. -/
def parseStream {σ ρ : Type} (h : Handler σ) (rd : Reader ρ) (garbage : Mem) (fuel : Nat) (r : ρ) (user : σ) :
    Option (Except Unit (Nat × σ × ρ)) := do
  let res ← streamLoop h rd fuel r
    { line := garbage, sec := List.replicate 50 0, prev := List.replicate 50 0, lineno := 0, error := 0,
      user := user }
  match res with
  | .error _ => return .error ()
  | .ok (st, r) => return .ok (st.error, st.user, r)

/-- A stream open for reading: the bytes that can still be read, and whether after them comes a read error
(otherwise the end of the file). -/
structure File where
  rest : List Byte
  fails : Bool

/-- `fgets`, the reading: at most `n` bytes, up to and including a line feed.  Result: the buffer, the
number of bytes stored, the file, and whether it stopped because nothing more could be read. -/
def fgetsLoop : (n : Nat) → Mem → Nat → File → Option (Mem × Nat × File × Bool)
  | 0, m, i, f => some (m, i, f, false)
  | n + 1, m, i, f =>
    match f.rest with
    | [] => some (m, i, f, true)
    | c :: rest => do
      let m ← m.store i [c]
      if c = 10 then some (m, i + 1, { f with rest := rest }, false)
      else fgetsLoop n m (i + 1) { f with rest := rest }

/-- `fgets(m, num, f)` (ISO C 7.23.7.2): NULL at the end of the file if nothing was read (the buffer is then
untouched), NULL on a read error (the buffer is then indeterminate: what was read, without a NUL), otherwise
the buffer with a NUL after the last byte read. -/
def fgets : Reader File := fun m num f => do
  let (m', i, f, ended) ← fgetsLoop (num - 1) m 0 f
  if ended ∧ (f.fails ∨ i = 0) then some (m', false, f)
  else
    let m' ← m'.store i [0]
    some (m', true, f)

/-- ini_reader.c 250-253 `ini_reader_parse_file`.  Every successful `fgets` consumes a byte, so
`length + 1` calls are enough. -/
def parseFile {σ : Type} (h : Handler σ) (garbage : Mem) (f : File) (user : σ) :
    Option (Except Unit (Nat × σ × File)) :=
  parseStream h fgets garbage (f.rest.length + 1) f user

/-- What the call leaves behind, seen from outside: value returned (-1 as an `Int`), user state, number of
streams opened and closed. -/
structure Outcome (σ : Type) where
  ret : Int
  user : σ
  opened : Nat
  closed : Nat

/-- ini_reader.c 256-269 `ini_reader_parse`: `file` is what `fopen(filename, "r")` gives (`none`: NULL). -/
def parse {σ : Type} (h : Handler σ) (garbage : Mem) (file : Option File) (user : σ) :
    Option (Except Unit (Outcome σ)) :=
  match file with
  | none => some (.ok { ret := -1, user := user, opened := 0, closed := 0 })
  | some f => do
    let r ← parseFile h garbage f user
    match r with
    | .error _ => some (.error ())
    | .ok (e, u, _) => some (.ok { ret := e, user := u, opened := 1, closed := 1 })

end Verif.IniFile
