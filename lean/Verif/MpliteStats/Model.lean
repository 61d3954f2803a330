import Verif.Mplite.Props
import Verif.Strings.Model

/-!
# Model of `mplite_print_stats`, `/repo/src/mem/mplite.c` 281-320, and of what it reads while another thread allocates

The function takes no lock.  `report` is what it prints when nothing else runs.  For calls that do run, `Step` cuts the updates of the
counters inside `mplite_malloc_unsafe` (463-476) and `mplite_free_unsafe` (517-518) at every store; the mutex of the pool allows one such
call at a time; the reading thread may read a counter between any two stores.

Simplification: each load and store of a counter is atomic and memory is sequentially consistent.
-/
namespace Verif.MpliteStats
open Verif.Strings (decText)

/-- The characters of a literal. -/
def str (s : String) : List Byte := s.toList.map fun c => UInt8.ofNat c.toNat

/-- mplite.c 288-319: `snprintf` into `char zStats[256]`, then `putsfunc`. -/
def line (label : String) (v : BitVec 32) : List Byte := (str label ++ decText v.toNat).take 255

/-- mplite.c 288-319: the eight lines; the first three counters are `uint64_t`, cast to `unsigned`. -/
def report (s : Mplite.St) : List (List Byte) :=
  [line "Total number of calls to malloc: " (BitVec.ofNat 32 s.nAlloc),
   line "Total of all malloc calls - includes internal fragmentation: " (BitVec.ofNat 32 s.totalAlloc),
   line "Total internal fragmentation: " (BitVec.ofNat 32 s.totalExcess),
   line "Current checkout, including internal fragmentation: " (BitVec.ofNat 32 s.currentOut),
   line "Current number of distinct checkouts: " (BitVec.ofNat 32 s.currentCount),
   line "Maximum instantaneous currentOut: " (BitVec.ofNat 32 s.maxOut),
   line "Maximum instantaneous currentCount: " (BitVec.ofNat 32 s.maxCount),
   line "Largest allocation (exclusive of internal frag): " (BitVec.ofNat 32 s.maxRequest)]

/-! ### Beside other threads -/

/-- The counters the report compares. -/
structure Counters where
  out : Nat
  count : Nat
  maxOut : Nat
  maxCount : Nat

/-- The stores to them, in program order inside a call. -/
inductive Store where
  /-- mplite.c 467 -/
  | incCount
  /-- mplite.c 468 -/
  | addOut (n : Nat)
  /-- mplite.c 469-472 -/
  | maxCount
  /-- mplite.c 473-476 -/
  | maxOut
  /-- mplite.c 517 -/
  | decCount
  /-- mplite.c 518 -/
  | subOut (n : Nat)

/-- One store. -/
def Store.run (c : Counters) : Store → Counters
  | .incCount => { c with count := c.count + 1 }
  | .addOut n => { c with out := c.out + n }
  | .maxCount => { c with maxCount := if c.maxCount < c.count then c.count else c.maxCount }
  | .maxOut => { c with maxOut := if c.maxOut < c.out then c.out else c.maxOut }
  | .decCount => { c with count := c.count - 1 }
  | .subOut n => { c with out := c.out - n }

/-- What the printing thread has read so far. -/
structure Seen where
  out : Option Nat
  count : Option Nat
  maxOut : Option Nat
  maxCount : Option Nat

/-- Counters, stores the call that holds the lock has yet to make, values read. -/
structure Sys where
  c : Counters
  todo : List Store
  seen : Seen

/-- What happens next. -/
inductive Step : Sys → Sys → Prop where
  /-- a thread takes the lock and allocates a block of `n` bytes (with its excess) -/
  | malloc (s : Sys) (n : Nat) (h : s.todo = []) : Step s { s with todo := [.incCount, .addOut n, .maxCount, .maxOut] }
  /-- a thread takes the lock and frees a block -/
  | free (s : Sys) (n : Nat) (h : s.todo = []) : Step s { s with todo := [.decCount, .subOut n] }
  | store (s : Sys) (x : Store) (xs : List Store) (h : s.todo = x :: xs) : Step s { s with c := x.run s.c, todo := xs }
  /-- mplite.c 302 -/
  | readOut (s : Sys) (h : s.seen.out = none) : Step s { s with seen := { s.seen with out := some s.c.out } }
  /-- mplite.c 306 -/
  | readCount (s : Sys) (h : s.seen.count = none) (h' : s.seen.out.isSome = true) :
      Step s { s with seen := { s.seen with count := some s.c.count } }
  /-- mplite.c 310 -/
  | readMaxOut (s : Sys) (h : s.seen.maxOut = none) (h' : s.seen.count.isSome = true) :
      Step s { s with seen := { s.seen with maxOut := some s.c.maxOut } }
  /-- mplite.c 314 -/
  | readMaxCount (s : Sys) (h : s.seen.maxCount = none) (h' : s.seen.maxOut.isSome = true) :
      Step s { s with seen := { s.seen with maxCount := some s.c.maxCount } }

/-- From a pool nobody has used. -/
inductive Reach (P : Sys → Sys → Prop) : Sys → Prop where
  | start : Reach P ⟨⟨0, 0, 0, 0⟩, [], ⟨none, none, none, none⟩⟩
  | step (s s' : Sys) (h : Reach P s) (hs : Step s s') (hp : P s s') : Reach P s'

/-- The current values are read while no call is between its first and its last store. -/
def Quiet (s s' : Sys) : Prop := (s'.seen.out ≠ s.seen.out ∨ s'.seen.count ≠ s.seen.count) → s.todo = []

end Verif.MpliteStats
