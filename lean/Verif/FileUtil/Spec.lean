import Verif.FileUtil.Model
/-! # Specification of the file utilities -/
namespace Verif.FileUtil.Spec

/-- The path without trailing spaces. -/
def trimmed (path : List Byte) : List Byte := (path.reverse.dropWhile (· == 32)).reverse

/-- The separator a path uses: a backslash if it contains one, else a slash. -/
def separator (path : List Byte) : Byte := if (92 : Byte) ∈ path then 92 else 47

/-- The non-empty prefixes of a path that end in a separator, shortest first: the directories to create. -/
def folders (path : List Byte) : List (List Byte) :=
  ((List.range path.length).filter fun i => path.getD i 0 == 92 || path.getD i 0 == 47).map fun i => path.take (i + 1)

/-- Create the missing ones in order, stop at the first failure. -/
def makeAll {σ : Type} (fs : Fs σ) (s : σ) : List (List Byte) → σ × Int
  | [] => (s, 0)
  | p :: ps =>
    if fs.access s p then makeAll fs s ps
    else if (fs.mkdir s p).2 ≠ 0 then fs.mkdir s p
    else makeAll fs (fs.mkdir s p).1 ps

/-- The pieces in which a text is delivered: up to and including a line feed, at most 1023 characters. -/
def pieces : List Byte → List (List Byte)
  | [] => []
  | c :: rest =>
    let n := min 1023 (min ((c :: rest).idxOf 10 + 1) (c :: rest).length)
    (c :: rest).take n :: pieces ((c :: rest).drop n)
termination_by s => s.length
decreasing_by
  simp only [List.length_drop, List.length_cons]
  omega

/-- Without its line end (`\n`, `\r\n`, or a `\r` at the very end). -/
def chomp (l : List Byte) : List Byte :=
  let l := if l.getLast? = some 10 then l.dropLast else l
  if l.getLast? = some 13 then l.dropLast else l

/-- What the handler is told about one piece: its text (up to a NUL if there is one) without line end and leading
white space; nothing if that is blank. -/
def content (l : List Byte) : Option (List Byte) :=
  let t := (chomp l).dropWhile fun c => [9, 10, 11, 12, 13, 32].contains c
  if t = [] then none else some t

/-- Call the handler for the non-blank pieces, with their numbers, until it returns non-zero. -/
def deliver {σ : Type} (h : σ → Nat → List Byte → σ × Int) (u : σ) : Nat → List (List Byte) → σ × Int
  | _, [] => (u, 0)
  | num, l :: ls =>
    match content (l.takeWhile (· != 0)) with
    | none => deliver h u (num + 1) ls
    | some t => if (h u num t).2 ≠ 0 then h u num t else deliver h (h u num t).1 (num + 1) ls

end Verif.FileUtil.Spec
