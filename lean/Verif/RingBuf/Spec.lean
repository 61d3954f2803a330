import Verif.RingBuf.Model
/-!
# Specification: a bounded byte FIFO with all-or-nothing transfers

Only `List` operations; knows nothing of offsets, wrap-around or memory.
-/
namespace Verif.RingBuf.Spec

/-- `q` holds the unread bytes, oldest first; at most `cap` of them. -/
def step (cap : Nat) (q : List Byte) : Op → List Byte × Out
  | .write src len =>
    if len.toNat = 0 ∨ cap - q.length < len.toNat then (q, ⟨0, []⟩)
    else (q ++ src.take len.toNat, ⟨len.toNat, []⟩)
  | .read t len =>
    if len.toNat = 0 ∨ q.length < len.toNat then (q, ⟨0, []⟩)
    else (q.drop len.toNat, ⟨len.toNat, if t then q.take len.toNat else []⟩)
  | .peek t len =>
    if len.toNat = 0 ∨ q.length < len.toNat then (q, ⟨0, []⟩)
    else (q, ⟨len.toNat, if t then q.take len.toNat else []⟩)
  | .discard len =>
    if len.toNat = 0 ∨ q.length < len.toNat then (q, ⟨0, []⟩)
    else (q.drop len.toNat, ⟨len.toNat, []⟩)
  | .clear => ([], ⟨0, []⟩)
  | .availRead => (q, ⟨q.length, []⟩)
  | .availWrite => (q, ⟨cap - q.length, []⟩)

def run (cap : Nat) (q : List Byte) : List Op → List Byte × List Out
  | [] => (q, [])
  | o :: os =>
    let (q, x) := step cap q o
    let (q, xs) := run cap q os
    (q, x :: xs)

/-- The caller's obligation: `source` really has `len` readable bytes. -/
def Valid : Op → Prop
  | .write src len => len.toNat ≤ src.length
  | _ => True

end Verif.RingBuf.Spec
