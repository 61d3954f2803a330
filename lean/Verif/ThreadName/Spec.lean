import Verif.ThreadName.Model

/-! # What the name of a thread should be, read off the history from its end -/
namespace Verif.ThreadName

/-- A name the system takes as it is. -/
def Short (name : List Byte) : Prop := name ≠ [] ∧ name.length ≤ 15
instance (name : List Byte) : Decidable (Short name) := inferInstanceAs (Decidable (_ ∧ _))

/-- The name thread `t` has at the end of the history (its newest event first); `first`: the thread that was there at the beginning,
with its name.  Names that are too long are lost in the `np` build and cut in the other one; the creator's are lost in both. -/
def nameOf (np : Bool) (first : Nat × List Byte) : List Ev → Nat → Option (List Byte)
  | [], t => if t = first.1 then some first.2 else none
  | .make p u :: past, t => if t = u then nameOf np first past p else nameOf np first past t
  | .given u (some x) :: past, t => if t = u ∧ Short x then some x else nameOf np first past t
  | .given _ none :: past, t => nameOf np first past t
  | .self u (some x) :: past, t =>
    if t = u ∧ Short x then some x
    else if t = u ∧ x ≠ [] ∧ np = false then some (x.take 15)
    else nameOf np first past t
  | .self _ none :: past, t => nameOf np first past t
  | .worker u id :: past, t => if t = u then some (poolName id) else nameOf np first past t

end Verif.ThreadName
