import Verif.Allocator.Model
/-!
# Specification: the client's view of a checked heap

A heap is a list of blocks the client owns: an address and the bytes stored there.  Nothing here knows
about canaries, records or the table.
-/
namespace Verif.Allocator.Spec

/-- A block handed out and not yet returned. -/
structure Block where
  ptr : Nat
  data : List UInt8
deriving Repr, DecidableEq

/-- The client's blocks, oldest first. -/
abbrev Heap := List Block

/-- Address and size of each block. -/
def shape (H : Heap) : List (Nat × Nat) := H.map fun b => (b.ptr, b.data.length)

/-- Sum of the sizes. -/
def total (T : List (Nat × Nat)) : Nat := (T.map (·.2)).sum

/-- `p` is a new address: not NULL and the `n` bytes there do not overlap any block. -/
def Fresh (H : Heap) (p n : Nat) : Prop :=
  p ≠ 0 ∧ ∀ b ∈ H, p + n ≤ b.ptr ∧ p ≠ b.ptr ∨ b.ptr + b.data.length ≤ p ∧ p ≠ b.ptr

/-- The heap without the block at `p`. -/
def remove (H : Heap) (p : Nat) : Heap := H.filter fun b => b.ptr != p

/-- The heap after `p[i] = v`. -/
def assign (H : Heap) (p i : Nat) (v : UInt8) : Heap :=
  H.map fun b => if b.ptr = p then { b with data := b.data.set i v } else b

/-- One step of a correct client on the heap.  An allocation may always fail (result NULL, nothing
changes).  `realloc` to a larger size hands out 2048 bytes more than asked. -/
inductive Step : Heap → Call → Out → Heap → Prop
  | nomem (H c) (h : match c with
      | .malloc _ | .calloc _ _ | .strdup _ | .strndup _ _ => True
      | .realloc p n => n ≠ 0 ∧ (p = 0 ∨ ∃ b ∈ H, b.ptr = p ∧ b.data.length < n)
      | _ => False) : Step H c (.ptr 0) H
  | malloc (H n p data) (hd : data.length = n) (hf : Fresh H p n) :
      Step H (.malloc n) (.ptr p) (H ++ [⟨p, data⟩])
  | calloc (H c n p) (hf : Fresh H p (c * n)) :
      Step H (.calloc c n) (.ptr p) (H ++ [⟨p, List.replicate (c * n) 0⟩])
  | strdup (H s p) (hf : Fresh H p (s.length + 1)) :
      Step H (.strdup s) (.ptr p) (H ++ [⟨p, s ++ [0]⟩])
  | strndup (H s n p) (hf : Fresh H p ((s.take n).length + 1)) :
      Step H (.strndup s n) (.ptr p) (H ++ [⟨p, s.take n ++ [0]⟩])
  | reallocFree (H p) : Step H (.realloc p 0) (.ptr 0) (remove H p)
  | reallocNew (H n p data) (hn : n ≠ 0) (hd : data.length = n + 2048) (hf : Fresh H p (n + 2048)) :
      Step H (.realloc 0 n) (.ptr p) (H ++ [⟨p, data⟩])
  | reallocFits (H b n) (hn : n ≠ 0) (hb : b ∈ H) (hle : n ≤ b.data.length) :
      Step H (.realloc b.ptr n) (.ptr b.ptr) H
  | reallocMove (H b n p rest) (hn : n ≠ 0) (hb : b ∈ H) (hgt : b.data.length < n)
      (hd : b.data.length + rest.length = n + 2048) (hf : Fresh H p (n + 2048)) :
      Step H (.realloc b.ptr n) (.ptr p) (remove H b.ptr ++ [⟨p, b.data ++ rest⟩])
  | free (H p) : Step H (.free p) .unit (remove H p)
  | write (H p) (i : Nat) (v) : Step H (.write p i v) .unit (assign H p i v)
  | read (H b) (i : Nat) (hb : b ∈ H) (hi : i < b.data.length) :
      Step H (.read b.ptr i) (.byte b.data[i]) H
  | reset (H) : Step H .reset .unit []
  | leaks (H reports) (hr : reports.Perm (shape H)) : Step H .leaks (.leaked (total (shape H)) reports) H

/-- The client's obligations: sizes (with the 16 bytes of the tracker, and the 2048 extra bytes of
realloc) fit in `size_t`; only own blocks are passed back; stores stay inside own blocks. -/
def Legal (H : Heap) : Call → Prop
  | .malloc n => n + 16 < 2 ^ 64
  | .calloc c n => c * n + 16 < 2 ^ 64
  | .strdup s => s.length + 17 < 2 ^ 64
  | .strndup s _ => s.length + 17 < 2 ^ 64
  | .realloc p n => n + 2064 < 2 ^ 64 ∧ (p = 0 ∨ ∃ b ∈ H, b.ptr = p)
  | .free p => p = 0 ∨ ∃ b ∈ H, b.ptr = p
  | .write p i _ => 0 ≤ i ∧ ∃ b ∈ H, b.ptr = p ∧ i < b.data.length
  | .read p i => 0 ≤ i ∧ ∃ b ∈ H, b.ptr = p ∧ i < b.data.length
  | .reset => True
  | .leaks => True

/-- The part of the obligations about sizes only. -/
def SizesOk : Call → Prop
  | .malloc n => n + 16 < 2 ^ 64
  | .calloc c n => c * n + 16 < 2 ^ 64
  | .strdup s => s.length + 17 < 2 ^ 64
  | .strndup s _ => s.length + 17 < 2 ^ 64
  | .realloc _ n => n + 2064 < 2 ^ 64
  | _ => True

/-- A history on the heap, with what was seen. -/
inductive Run : Heap → List (Call × Out) → Heap → Prop
  | nil (H) : Run H [] H
  | snoc {H H' H'' c o cs} : Run H cs H' → Step H' c o H'' → Run H (cs ++ [(c, o)]) H''

/-! ## The ledger: address and size of every block handed out and not returned

This one is computed from what the client sees alone, for *any* client. -/

/-- Update the ledger after a call that returned `o`. -/
def ledger (T : List (Nat × Nat)) : Call → Out → List (Nat × Nat)
  | .malloc n, .ptr p => if p = 0 then T else T ++ [(p, n)]
  | .calloc c n, .ptr p => if p = 0 then T else T ++ [(p, c * n)]
  | .strdup s, .ptr p => if p = 0 then T else T ++ [(p, s.length + 1)]
  | .strndup s n, .ptr p => if p = 0 then T else T ++ [(p, (s.take n).length + 1)]
  | .realloc old n, .ptr p =>
    if n = 0 then T.filter (fun b => b.1 != old)
    else if p = 0 ∨ p = old then T
    else T.filter (fun b => b.1 != old) ++ [(p, n + 2048)]
  | .free p, _ => T.filter (fun b => b.1 != p)
  | .reset, _ => []
  | _, _ => T

/-- The ledger after a history. -/
def ledgers : List (Nat × Nat) → List (Call × Out) → List (Nat × Nat)
  | T, [] => T
  | T, (c, o) :: cs => ledgers (ledger T c o) cs

/-- The text of the canary, as bytes. -/
def tinybird : List UInt8 := "tinybird".toList.map fun c => UInt8.ofNat c.toNat

/-- The 8 bytes in front of and the 8 bytes behind the block are still "tinybird". -/
def Intact (mem : Nat → UInt8) (b : Nat × Nat) : Prop :=
  ∀ i < 8, mem (b.1 - 8 + i) = tinybird.getD i 0 ∧ mem (b.1 + b.2 + i) = tinybird.getD i 0

end Verif.Allocator.Spec
