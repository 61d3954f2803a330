import Verif.Mplite.Model
/-!
# Specification of mplite: the client's ledger

The client knows which blocks it holds, what it asked for and what it wrote into them.  Nothing here mentions
free lists or control bytes.
-/
namespace Verif.Mplite

/-- The smallest of `atom, 2 atom, 4 atom, ...` that is at least `n`. -/
def fit (atom n : Nat) : Nat :=
  (((List.range 31).map (fun k => atom * 2 ^ k)).find? (fun m => decide (n ≤ m))).getD 0

/-- Granularity of the pool: the smallest power of two that is at least 8 and `min_alloc`. -/
def atomOf (minAlloc : Nat) : Nat := fit 8 minAlloc

/-- Number of atoms in a buffer: each costs its size and one control byte. -/
def atoms (bufSize minAlloc : Nat) : Nat := bufSize / (atomOf minAlloc + 1)

/-- A block the client holds. -/
structure Blk where
  /-- offset of its address from the start of the buffer -/
  off : Nat
  /-- bytes asked for -/
  req : Nat
  /-- bytes given -/
  size : Nat
  /-- the value last stored at each offset, if known -/
  data : Nat → Option Byte

/-- What the client knows. -/
structure Ledger where
  live : List Blk
  /-- successful allocations -/
  count : Nat
  /-- bytes given, ever -/
  given : Nat
  /-- bytes given beyond those asked for, ever -/
  excess : Nat
  /-- most bytes held at a time -/
  peakOut : Nat
  /-- most blocks held at a time -/
  peakCount : Nat
  /-- largest request -/
  largest : Nat

def Ledger.empty : Ledger := ⟨[], 0, 0, 0, 0, 0, 0⟩

/-- Bytes held. -/
def heldBytes (bs : List Blk) : Nat := (bs.map (·.size)).sum

/-- A request was made. -/
def Ledger.request (L : Ledger) (n : Nat) : Ledger := { L with largest := max L.largest n }

/-- A block was obtained. -/
def Ledger.add (L : Ledger) (atom p n : Nat) (data : Nat → Option Byte) : Ledger :=
  let live := ⟨p, n, fit atom n, data⟩ :: L.live
  { L with
    live := live
    count := L.count + 1
    given := L.given + fit atom n
    excess := L.excess + (fit atom n - n)
    peakOut := max L.peakOut (heldBytes live)
    peakCount := max L.peakCount live.length }

/-- A block was given back. -/
def Ledger.remove (L : Ledger) (p : Nat) : Ledger :=
  { L with live := L.live.eraseP (fun b => decide (b.off = p)) }

/-- Update of the block at `p`. -/
def Ledger.modify (L : Ledger) (p : Nat) (f : Blk → Blk) : Ledger :=
  { L with live := L.live.map (fun b => if b.off = p then f b else b) }

/-- Calls, and the client's stores through its pointers. -/
inductive Op where
  | malloc (n : Int)
  | calloc (n : Int)
  | free (p : Nat)
  | realloc (p : Nat) (n : Int)
  | store (p j : Nat) (v : Byte)

/-- Run one. -/
def exec (s : St) : Op → Option (St × Option Nat)
  | .malloc n => malloc s n
  | .calloc n => calloc s n
  | .free p => (free s p).map (fun s => (s, none))
  | .realloc p n => realloc s p n
  | .store p j v => some (write s (p + j) v, none)

/-- `n` is a request the allocator accepts. -/
def Acceptable (n : Int) : Prop := 0 < n ∧ n ≤ 1073741824
instance (n : Int) : Decidable (Acceptable n) := inferInstanceAs (Decidable (_ ∧ _))

/-- `n` is 1, 2, 4, ... -/
def PowTwo (n : Int) : Prop := 0 < n ∧ n.toNat = 2 ^ Nat.log2 n.toNat
instance (n : Int) : Decidable (PowTwo n) := inferInstanceAs (Decidable (_ ∧ _))

/-- A request for `n` bytes that returned `r`. -/
def Ledger.asked (L : Ledger) (atom : Nat) (n : Int) (r : Option Nat) (data : Nat → Option Byte) : Ledger :=
  if Acceptable n then
    match r with
    | none => L.request n.toNat
    | some p => (L.request n.toNat).add atom p n.toNat data
  else L

/-- The contents of a block are the first bytes of the new one. -/
def Blk.copy (b : Blk) : Nat → Option Byte := fun j => if j < b.size then b.data j else none

/-- The ledger after a call that returned `r`. -/
def Ledger.after (atom : Nat) (L : Ledger) : Op → Option Nat → Ledger
  | .malloc n, r => L.asked atom n r (fun _ => none)
  | .calloc n, r => L.asked atom n r (fun j => if j < n.toNat then some 0 else none)
  | .free p, _ => L.remove p
  | .realloc p n, r =>
    match L.live.find? (fun b => decide (b.off = p)) with
    | none => L
    | some b =>
      if PowTwo n then
        if n ≤ b.size then L.modify p (fun b => { b with req := n.toNat })
        else
          match r with
          | none => L.asked atom n none b.copy
          | some q => (L.asked atom n (some q) b.copy).remove p
      else L
  | .store p j v, _ => L.modify p (fun b => { b with data := fun k => if k = j then some v else b.data k })

/-- What the client may do: free and resize what it holds, store inside what it holds. -/
def Legal (L : Ledger) : Op → Prop
  | .malloc _ => True
  | .calloc _ => True
  | .free p => ∃ b ∈ L.live, b.off = p
  | .realloc p _ => ∃ b ∈ L.live, b.off = p
  | .store p j _ => ∃ b ∈ L.live, b.off = p ∧ j < b.size

/-- Histories: `mplite_init` on a buffer with any contents, then any legal calls and stores. -/
inductive Reach (bufSize minAlloc : Nat) : St → Ledger → Prop
  | init {mem : Nat → Byte} {s : St} : init mem bufSize minAlloc = some (some s) →
      Reach bufSize minAlloc s Ledger.empty
  | step {s s' : St} {L : Ledger} {op : Op} {r : Option Nat} : Reach bufSize minAlloc s L → Legal L op →
      exec s op = some (s', r) → Reach bufSize minAlloc s' (L.after (atomOf minAlloc) op r)

/-- The parameters `mplite_init` accepts (`int`s; above 2^30 `min_alloc` makes it compute `1 << 31`). -/
def GoodParams (bufSize minAlloc : Nat) : Prop :=
  0 < bufSize ∧ bufSize < 2147483648 ∧ 0 < minAlloc ∧ minAlloc ≤ 1073741824

/-- Follow the `next` links: the blocks (as atom numbers) of a free list. -/
def chain (s : St) : Nat → Int → Option (List Nat)
  | 0, _ => none
  | fuel + 1, x => if x = -1 then some [] else
      if 0 ≤ x then (s.getNext x.toNat).bind fun y => (chain s fuel y).map (x.toNat :: ·) else none

/-- The free blocks of size `2 ^ l` atoms. -/
def freeBlocks (s : St) (l : Nat) : Option (List Nat) := chain s (s.nBlock + 1) (s.flist l)

/-- The range `[a, a + n)` meets no held block. -/
def Unheld (L : Ledger) (a n : Nat) : Prop := ∀ b ∈ L.live, b.off + b.size ≤ a ∨ a + n ≤ b.off

end Verif.Mplite
