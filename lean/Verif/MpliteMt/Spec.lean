import Verif.MpliteMt.Model
import Verif.Mplite.Spec
/-!
# Specification of mplite under threads: who holds which block

What the clients know, all together.  A thread owns the blocks it was given; a block it passes to `free`, `realloc`
or `resize` is lent to that call until the call returns.
-/
namespace Verif.MpliteMt
open Verif.Mplite (St Blk Ledger fit PowTwo)

/-- The clients' books. -/
structure Books where
  /-- owner and block -/
  held : List (Nat × Blk)
  /-- the block a call of this thread has been given -/
  lent : Nat → Option Blk

/-- Nothing is held. -/
def Books.empty : Books := ⟨[], fun _ => none⟩

/-- The pointer a call is given. -/
def ptrArg : Call → Option Nat
  | .free p => some p
  | .realloc p _ => some p
  | .resize p _ => some p
  | _ => none

/-- Thread `i` may make this call: pointers it passes are to blocks it owns. -/
def Legal (B : Books) (i : Nat) (c : Call) : Prop := ∀ p, ptrArg c = some p → ∃ b, (i, b) ∈ B.held ∧ b.off = p

/-- The books when thread `i` makes the call `c`: the block is lent. -/
def Books.calls (B : Books) (i : Nat) (c : Call) : Books :=
  match ptrArg c with
  | none => B
  | some p =>
    { held := B.held.filter (fun h => decide (h.2.off ≠ p))
      lent := fun k => if k = i then (B.held.find? (fun h => decide (h.2.off = p))).map (·.2) else B.lent k }

/-- What thread `i` owns when its call `c`, which was lent `l`, has returned `r`. -/
def gets (atom : Nat) (c : Call) (l : Option Blk) (r : Ret) : Option Blk :=
  match c, r with
  | .malloc n, .ptr (some p) => some ⟨p, n.toNat, fit atom n.toNat, fun _ => none⟩
  | .calloc n, .ptr (some p) => some ⟨p, n.toNat, fit atom n.toNat, fun j => if j < n.toNat then some 0 else none⟩
  | .realloc _ n, .ptr (some q) =>
    l.map fun b => if n ≤ b.size then { b with req := n.toNat } else ⟨q, n.toNat, fit atom n.toNat, b.copy⟩
  | .realloc _ _, .ptr none => l
  | .resize _ _, _ => l
  | _, _ => none

/-- The books when the call returns. -/
def Books.returns (B : Books) (atom i : Nat) (c : Call) (r : Ret) : Books :=
  { held := (gets atom c (B.lent i) r).toList.map (fun b => (i, b)) ++ B.held
    lent := fun k => if k = i then none else B.lent k }

/-- The books after a store at offset `j` of the block at `p`. -/
def Books.stores (B : Books) (p j : Nat) (v : Byte) : Books :=
  { B with
    held := B.held.map fun h =>
      if h.2.off = p then (h.1, { h.2 with data := fun k => if k = j then some v else h.2.data k }) else h }

/-- The books after the block at `p` was passed on to thread `k`. -/
def Books.gives (B : Books) (p k : Nat) : Books :=
  { B with held := B.held.map fun h => if h.2.off = p then (k, h.2) else h }

/-- Histories: `mplite_init` on a buffer with any contents, then, in any order, calls and stores of any threads and the
steps of the calls. -/
inductive Run (bufSize minAlloc : Nat) : Sys → Books → Prop
  | init {mem : Nat → Byte} {s : St} : Mplite.init mem bufSize minAlloc = some (some s) →
      Run bufSize minAlloc ⟨s, none, fun _ => .idle⟩ Books.empty
  | call {x : Sys} {B : Books} {i : Nat} {c : Call} : Run bufSize minAlloc x B → x.ph i = .idle → Legal B i c →
      Run bufSize minAlloc (x.goto i (enter c)) (B.calls i c)
  | step {x x' : Sys} {B : Books} {i : Nat} : Run bufSize minAlloc x B → move x i = .ok x' →
      Run bufSize minAlloc x' B
  | ret {x : Sys} {B : Books} {i : Nat} {c : Call} {r : Ret} : Run bufSize minAlloc x B → x.ph i = .returning c r →
      Run bufSize minAlloc (x.goto i .idle) (B.returns (Mplite.atomOf minAlloc) i c r)
  | store {x : Sys} {B : Books} {i j : Nat} {b : Blk} {v : Byte} : Run bufSize minAlloc x B → x.ph i = .idle →
      (i, b) ∈ B.held → j < b.size →
      Run bufSize minAlloc { x with pool := Mplite.write x.pool (b.off + j) v } (B.stores b.off j v)
  | give {x : Sys} {B : Books} {i k : Nat} {b : Blk} : Run bufSize minAlloc x B → x.ph i = .idle →
      (i, b) ∈ B.held → Run bufSize minAlloc x (B.gives b.off k)

end Verif.MpliteMt
