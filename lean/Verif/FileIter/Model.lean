import Verif.Common.CStr

/-!
# Model of `/repo/src/file/file_iterator.c`

The file system is a parameter: `stat` (`none`: it fails, otherwise whether the path is a directory) and `opendir`
(`none`: it fails, otherwise the names its stream yields, in order).  It does not change during the call.  `PATH_MAX`
is a parameter.  Logging is omitted.  The handler is a function of the user's state `σ` and returns the new state and
its `int`.  What the function does is recorded as a list of events.
-/
namespace Verif.FileIter

/-- What `file_iterator_foreach` passes in `file_info_t`: directory, name, `FILE_ITERATOR_TYPE_DIR`?, and the path
whose `struct stat` it is. -/
structure Info where
  dir : List Byte
  name : List Byte
  isDir : Bool
  statOf : List Byte
deriving DecidableEq

structure World where
  stat : List Byte → Option Bool
  opendir : List Byte → Option (List (List Byte))
  pathMax : Nat

/-- What can be observed of a call. -/
inductive Ev
  | opened
  | call (i : Info) (ret : Int)
  | closed
deriving DecidableEq

/-- file_iterator.c 60-71: the entry is skipped. -/
def skip (n : List Byte) : Bool :=
  let len := n.length
  if len < 3 then
    if len == 1 && n[0]? == some 46 then true
    else if len == 2 && n[0]? == some 46 && n[1]? == some 46 then true
    else false
  else false

/-- file_iterator.c 72: `snprintf(path_buf, PATH_MAX, "%s/%s", dir, name)`. -/
def path (w : World) (dir name : List Byte) : List Byte := (dir ++ 47 :: name).take (w.pathMax - 1)

variable {σ : Type}

/-- file_iterator.c 58-91: the loop over the directory stream. -/
def loop (w : World) (dir : List Byte) (handler : σ → Info → σ × Int) : List (List Byte) → σ → List Ev × σ
  | [], u => ([], u)
  | n :: ns, u =>
    if skip n then loop w dir handler ns u
    else
      match w.stat (path w dir n) with
      | none => ([], u)
      | some d =>
        let i : Info := { dir := dir, name := n, isDir := d, statOf := path w dir n }
        let r := handler u i
        if r.2 ≠ 0 then ([.call i r.2], r.1)
        else
          let t := loop w dir handler ns r.1
          (.call i r.2 :: t.1, t.2)

/-- file_iterator.c 37-94 `file_iterator_foreach`: what it did, the user's state, and the value returned. -/
def foreach (w : World) (dir : List Byte) (handler : σ → Info → σ × Int) (u : σ) : List Ev × σ × Int :=
  match w.stat dir with
  | none => ([], u, 1)
  | some false => ([], u, 1)
  | some true =>
    match w.opendir dir with
    | none => ([], u, 1)
    | some ns =>
      let t := loop w dir handler ns u
      (.opened :: t.1 ++ [.closed], t.2, 0)

end Verif.FileIter
