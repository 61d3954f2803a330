import Verif.Common.Dec

/-!
# Model of the naming of threads on Linux

`/repo/src/thread/posix_thread.c` 61-79 `posix_thread_set_current_name` (= `portable_thread_set_current_name`,
src/thread/portable_thread_posix.c 38-41), `/repo/src/thread/portable_thread_posix.c` 66-69 (the name given to a new thread) and
`/repo/src/thread/thpool.c` 338-343 (the names of a pool's workers).

The system keeps one name of at most 15 bytes per thread; a new thread starts with its creator's.  Contracts: `pthread_setname_np` refuses
longer names with ERANGE (34); `prctl(PR_SET_NAME)` cuts them and answers 0.  A C string is the list of its bytes, none of them 0.
Not modelled: the Windows and Apple branches, threads that have ended.
-/
namespace Verif.ThreadName
open Verif.Strings (decText)

/-- The names of the threads, and which threads exist. -/
abbrev Names := Nat → Option (List Byte)

def upd (s : Names) (t : Nat) (x : List Byte) : Names := fun u => if u = t then some x else s u

/-- `pthread_setname_np` by its contract. -/
def setnameNp (s : Names) (t : Nat) (name : List Byte) : Names × Int :=
  if 15 < name.length then (s, 34) else (upd s t name, 0)

/-- `prctl(PR_SET_NAME, name)` by its contract, called by thread `t`. -/
def prctlName (s : Names) (t : Nat) (name : List Byte) : Names × Int := (upd s t (name.take 15), 0)

/-- posix_thread.c 61-79; `np`: built with HAVE_PTHREAD_SETNAME_NP; `name`: `none` for NULL. -/
def setCurrent (np : Bool) (s : Names) (t : Nat) (name : Option (List Byte)) : Names × Int :=
  match name with
  | none => (s, -1)
  | some [] => (s, -1)
  | some (c :: cs) => if np then setnameNp s t (c :: cs) else prctlName s t (c :: cs)

/-- portable_thread_posix.c 66-69: the creator names the new thread; the answer is ignored. -/
def nameNew (s : Names) (t : Nat) (name : Option (List Byte)) : Names :=
  match name with
  | none => s
  | some [] => s
  | some (c :: cs) => (setnameNp s t (c :: cs)).1

/-- "thpool-" -/
def prefix7 : List Byte := [116, 104, 112, 111, 111, 108, 45]

/-- thpool.c 338-339: `snprintf(thread_name, 16, "thpool-%d", id)`. -/
def poolName (id : Nat) : List Byte := (prefix7 ++ decText id).take 15

/-- What happens to names. -/
inductive Ev where
  /-- thread `p` makes thread `t` (`pthread_create`) -/
  | make (p t : Nat)
  /-- its creator names thread `t` (after `pthread_create` has returned 0) -/
  | given (t : Nat) (name : Option (List Byte))
  /-- thread `t` names itself -/
  | self (t : Nat) (name : Option (List Byte))
  /-- thread `t` starts as worker `id` of a pool, thpool.c 338-343 -/
  | worker (t id : Nat)

/-- One event; `none` if it cannot happen (a thread that does not exist, or exists already). -/
def step (np : Bool) (s : Names) : Ev → Option Names
  | .make p t => if (s t).isSome then none else (s p).map fun x => upd s t x
  | .given t name => if (s t).isSome then some (nameNew s t name) else none
  | .self t name => if (s t).isSome then some (setCurrent np s t name).1 else none
  | .worker t id => if (s t).isSome then some (prctlName s t (poolName id)).1 else none

/-- A history. -/
def run (np : Bool) : Names → List Ev → Option Names
  | s, [] => some s
  | s, e :: es => (step np s e).bind fun s => run np s es

end Verif.ThreadName
