import Verif.Common.Mem
/-!
# Model of `file_util_get_size_by_path` and `file_util_get_size_by_fs` (`/repo/src/file/file_util.c` 101-128)

A stream is the file behind it, the bytes written to the stream that still sit in its buffer, and its position.
Whether `fseek`, `ftell` and `stat` fail is arbitrary.  `w` is the width of `long`.
-/
namespace Verif.FileSize

/-- An open `FILE`: the bytes of the file, the buffered output `pend` that belongs at offset `off`, and the
end-of-file mark.  The position is `off + pend.length`. -/
structure Stream where
  disk : List Byte
  off : Nat
  pend : List Byte
  eof : Bool

/-- The position of the stream, C11 7.21.3. -/
def Stream.pos (s : Stream) : Nat := s.off + s.pend.length

/-- `fflush`: the buffered bytes reach the file (a hole before them reads as zeros). -/
def Stream.flush (s : Stream) : Stream :=
  if s.pend = [] then s
  else { s with
    disk := (s.disk ++ List.replicate (s.off - s.disk.length) 0).take s.off ++ s.pend ++ s.disk.drop s.pos
    off := s.pos
    pend := [] }

/-- Which of the library calls fail. -/
structure Env where
  /-- the first `fseek` fails (a pipe, a file longer than `LONG_MAX`, a failing flush) -/
  seekEnd : Bool
  /-- `ftell` fails -/
  tell : Bool
  /-- the second `fseek` fails -/
  seekSet : Bool

/-- `fseek(fs, 0, SEEK_END)`: flushes and goes to the end of the file. -/
def fseekEnd (fails : Bool) (s : Stream) : Stream × Bool :=
  if fails then (s, true)
  else
    let s := s.flush
    ({ s with
      off := s.disk.length
      eof := false }, false)

/-- `fseek(fs, 0, SEEK_SET)`. -/
def fseekSet (fails : Bool) (s : Stream) : Stream × Bool :=
  if fails then (s, true)
  else
    let s := s.flush
    ({ s with
      off := 0
      eof := false }, false)

/-- `ftell(fs)`: the position, `-1` if it fails or the position is no `long` of `w` bits. -/
def ftell (w : Nat) (fails : Bool) (s : Stream) : Int :=
  if fails ∨ 2 ^ (w - 1) ≤ s.pos then -1 else s.pos

/-- file_util.c 112-128: `file_util_get_size_by_fs(fs)`; `none` stands for `NULL`. -/
def getSizeByFs (w : Nat) (e : Env) (fs : Option Stream) : Option Stream × Int :=
  match fs with
  | none => (none, -1)
  | some s =>
    match fseekEnd e.seekEnd s with
    | (s, true) => (some s, -2)
    | (s, false) =>
      let total := ftell w e.tell s
      match fseekSet e.seekSet s with
      | (s, true) => (some s, -3)
      | (s, false) => (some s, total)

/-- Conversion of a file offset to a `long` of `w` bits (C11 6.3.1.3, two's complement). -/
def toLong (w : Nat) (x : Int) : Int :=
  let r := x % (2 ^ w : Int)
  if r < (2 ^ (w - 1) : Int) then r else r - (2 ^ w : Int)

/-- file_util.c 101-110: `file_util_get_size_by_path(path)`; `st` is what `stat` says: a failure code or
`st_size`. -/
def getSizeByPath (w : Nat) (st : Except Int Nat) : Int :=
  match st with
  | .error r => toLong w r
  | .ok size => toLong w size

end Verif.FileSize
