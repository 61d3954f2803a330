import Verif.Common.CStr
/-!
# Model of `/repo/src/mem/asprintf.c`

The C library is a parameter: what the formatting machinery makes of the format and the arguments is a
`Print` (a text, or an error after some bytes), what `malloc` answers is arbitrary, the bytes of a new block
are arbitrary.  The two passes of `vasprintf` may see *different* texts (another thread may change a string
argument between them).  `none` is undefined behaviour.
-/
namespace Verif.Asprintf

/-- `INT_MAX`. -/
def INT_MAX : Nat := 2147483647

/-- What formatting does: produces a text, or fails after having produced some bytes. -/
inductive Print where
  | text (t : List Byte)
  | err (written : List Byte)

/-- The live blocks of the heap and the caller's `*strp`. -/
structure St where
  heap : List (Nat × Mem)
  strp : Nat

/-- C library `vsnprintf(blk, n, ..)`, C11 7.21.6.12: writes at most `n` bytes, the last of them a NUL; answers
the full length, `-1` for an error or if the length is no `int`. -/
def vsnprintf (blk : Mem) (n : Nat) : Print → Option (Mem × Int)
  | .err w => do
    let m ← blk.store 0 (w.take n)
    return (m, -1)
  | .text t =>
    if INT_MAX < t.length then do
      let m ← blk.store 0 (t.take n)
      return (m, -1)
    else if n = 0 then return (blk, t.length)
    else do
      let m ← blk.store 0 (t.take (n - 1) ++ [0])
      return (m, t.length)

/-- asprintf.c 4-11 (GNU): `vscprintf`.  `render` consumes arguments from a `va_list`; the result is the answer
and the caller's list afterwards.  The object of size 0 stands for `NULL`. -/
def vscprintfGnu {V : Type} (render : V → Print × V) (ap : V) : Option (Int × V) := do
  let copy := ap
  let (_, r) ← vsnprintf [] 0 (render copy).1
  return (r, ap)

/-- `_vscprintf` of the Microsoft library (inc/mem/asprintf.h 24-26): the length the text would have. -/
def vscprintf : Print → Int
  | .err _ => -1
  | .text t => if INT_MAX < t.length then -1 else t.length

/-- `malloc(n)`: fails, or adds a block of `n` arbitrary bytes at a given place. -/
def malloc (heap : List (Nat × Mem)) (ans : Option Nat) (junk : Nat → Byte) (n : Nat) :
    List (Nat × Mem) × Option Nat :=
  match ans with
  | none => (heap, none)
  | some a => ((a, (List.range n).map junk) :: heap, some a)

/-- The block at `a`. -/
def blockAt (heap : List (Nat × Mem)) (a : Nat) : Option Mem :=
  (heap.find? (·.1 == a)).map (·.2)

/-- Replace the bytes of the block at `a`. -/
def setBlock (heap : List (Nat × Mem)) (a : Nat) (m : Mem) : List (Nat × Mem) :=
  heap.map (fun p => if p.1 == a then (a, m) else p)

/-- `free(a)` of a live block. -/
def free (heap : List (Nat × Mem)) (a : Nat) : Option (List (Nat × Mem)) :=
  if (heap.find? (·.1 == a)).isSome then some (heap.filter (fun p => p.1 != a)) else none

/-- asprintf.c 15-36: `vasprintf(strp, format, ap)`; `first` and `second` are what the two passes make of the
format and the arguments. -/
def vasprintf (ans : Option Nat) (junk : Nat → Byte) (first second : Print) (s : St) : Option (St × Int) :=
  let len := vscprintf first
  if len = -1 then some (s, -1)
  else
    match malloc s.heap ans junk (len.toNat + 1) with
    | (heap, none) => some (⟨heap, s.strp⟩, -1)
    | (heap, some str) =>
      -- `len + 1` is computed in `int`
      if len + 1 > INT_MAX then none
      else do
        let blk ← blockAt heap str
        let (blk, ret) ← vsnprintf blk (len + 1).toNat second
        let heap := setBlock heap str blk
        if ret = -1 then
          let heap ← free heap str
          return (⟨heap, s.strp⟩, -1)
        else return (⟨heap, str⟩, ret)

/-- asprintf.c 38-45: `asprintf(strp, format, ...)`. -/
def asprintf (ans : Option Nat) (junk : Nat → Byte) (first second : Print) (s : St) : Option (St × Int) :=
  vasprintf ans junk first second s

end Verif.Asprintf
