import Verif.FixedMsgQueue.Model
/-!
# Specification: FIFO of whole messages, at most `cap` of them
-/
namespace Verif.FixedMsgQueue.Spec

def step (one cap : Nat) (q : List (List Byte)) : Op → List (List Byte) × Out
  | .push none => (q, .pushed false)
  | .push (some m) => if q.length < cap then (q ++ [m.take one], .pushed true) else (q, .pushed false)
  | .pop false => (q, .popped false [])
  | .pop true =>
    match q with
    | [] => ([], .popped false [])
    | m :: q => (q, .popped true m)
  | .clear => ([], .cleared)
  | .popAmount => (q, .amount q.length)
  | .pushAmount => (q, .amount (cap - q.length))

def run (one cap : Nat) (q : List (List Byte)) : List Op → List (List Byte) × List Out
  | [] => (q, [])
  | o :: os =>
    let (q, x) := step one cap q o
    let (q, xs) := run one cap q os
    (q, x :: xs)

/-- Caller's obligation: `msg_p` points to `one` readable bytes. -/
def Valid (one : Nat) : Op → Prop
  | .push (some m) => one ≤ m.length
  | _ => True

end Verif.FixedMsgQueue.Spec
