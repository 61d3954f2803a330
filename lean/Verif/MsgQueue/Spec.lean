import Verif.MsgQueue.Model
/-!
# Specification: FIFO of variable-length messages

Each message costs its length plus a 4-byte header; `cap` is the total number of bytes.
-/
namespace Verif.MsgQueue.Spec

/-- bytes occupied -/
def used (q : List (List Byte)) : Nat := (q.map fun m => 4 + m.length).sum

def step (cap : Nat) (q : List (List Byte)) : Op → List (List Byte) × Out
  | .push none _ => (q, .pushed .nullHandle)
  | .push (some m) size =>
    if size.toNat = 0 then (q, .pushed .nullHandle)
    else if cap - used q < 4 + size.toNat then (q, .pushed .full)
    else (q ++ [m.take size.toNat], .pushed .success)
  | .pop _ none => (q, .popped .nullHandle [] none)
  | .pop false (some room) => (q, .popped .nullHandle [] (some room.toNat))
  | .pop true (some room) =>
    match q with
    | [] => ([], .popped .empty [] (some room.toNat))
    | m :: q' =>
      if room.toNat < m.length then (q, .popped .bufNotEnough [] (some m.length))
      else (q', .popped .success m (some room.toNat))
  | .nextSize => (q, .num (match q with | [] => 0 | m :: _ => m.length))
  | .clear => ([], .cleared)
  | .popBytes => (q, .num (used q))
  | .pushBytes => (q, .num (cap - used q))

def run (cap : Nat) (q : List (List Byte)) : List Op → List (List Byte) × List Out
  | [] => (q, [])
  | o :: os =>
    let (q, x) := step cap q o
    let (q, xs) := run cap q os
    (q, x :: xs)

/-- Caller's obligation: `msg_p` points to `size` readable bytes. -/
def Valid : Op → Prop
  | .push (some m) size => size.toNat ≤ m.length
  | _ => True

end Verif.MsgQueue.Spec
