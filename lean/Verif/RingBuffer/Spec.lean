import Verif.RingBuffer.Model
/-!
# Specification: a bounded byte FIFO with partial transfers

`q` is the list of unread bytes, oldest first; `cap` the capacity.
-/
namespace Verif.RingBuffer.Spec

def step (cap : Nat) (q : List Byte) : Op → List Byte × Out
  | .write none _ => (q, ⟨0, []⟩)
  | .write (some src) len =>
    let n := min len.toNat (cap - q.length)
    (q ++ src.take n, ⟨n, []⟩)
  | .read t len =>
    if t then
      let n := min len.toNat q.length
      (q.drop n, ⟨n, q.take n⟩)
    else (q, ⟨0, []⟩)
  | .peek t len =>
    let n := min len.toNat q.length
    (q, ⟨n, if t then q.take n else []⟩)
  | .discard len =>
    let n := min len.toNat q.length
    (q.drop n, ⟨n, []⟩)
  | .clear => ([], ⟨0, []⟩)
  | .availRead => (q, ⟨q.length, []⟩)
  | .availWrite => (q, ⟨cap - q.length, []⟩)
  | .isEmpty => (q, ⟨if q = [] then 1 else 0, []⟩)
  | .isFull => (q, ⟨if q.length = cap then 1 else 0, []⟩)

def run (cap : Nat) (q : List Byte) : List Op → List Byte × List Out
  | [] => (q, [])
  | o :: os =>
    let (q, x) := step cap q o
    let (q, xs) := run cap q os
    (q, x :: xs)

/-- The caller's obligation: `source` really has `size` readable bytes. -/
def Valid : Op → Prop
  | .write (some src) len => len.toNat ≤ src.length
  | _ => True

end Verif.RingBuffer.Spec
