import Verif.FixedSpsc.Model
/-! # Specification: what was pushed, what was popped -/
namespace Verif.FixedSpsc.Spec

/-- messages whose push returned true, in order -/
def pushed {one : BitVec 32} (h : List (PushCall one × Bool)) : List (List Byte) :=
  h.filterMap fun (c, r) => if r then some c.bytes else none

/-- messages delivered by successful pops, in order -/
def popped (h : List (Unit × Option (List Byte))) : List (List Byte) := h.filterMap fun (_, r) => r

/-- the message of the push call the writer is currently inside, if any -/
def inFlight {one : BitVec 32} : Spsc.WLoc (PushCall one) Bool → List (List Byte)
  | .run c _ => [c.bytes]
  | .copy c _ _ _ _ _ => [c.bytes]
  | _ => []

end Verif.FixedSpsc.Spec
