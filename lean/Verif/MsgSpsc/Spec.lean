import Verif.MsgSpsc.Model
/-! # Specification: what was pushed, what was popped -/
namespace Verif.MsgSpsc.Spec
open MsgQueue (Code)

/-- messages whose push returned success, in order -/
def pushed (h : List (PushCall × Code)) : List (List Byte) :=
  h.filterMap fun (c, r) => if r = .success then some c.bytes else none

/-- messages delivered by successful pops, in order -/
def popped (h : List (BitVec 32 × PopRes)) : List (List Byte) :=
  h.filterMap fun (_, r) => if r.code = .success then some r.data else none

/-- the message of the push call the writer is currently inside, if any -/
def inFlight : Spsc.WLoc PushCall Code → List (List Byte)
  | .run c _ => [c.bytes]
  | .copy c _ _ _ _ _ => [c.bytes]
  | _ => []

end Verif.MsgSpsc.Spec
