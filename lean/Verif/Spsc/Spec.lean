import Verif.Spsc.Model
/-! # Specification: a byte stream -/
namespace Verif.Spsc.Spec

/-- bytes accepted by the completed writes, in order -/
def sent (wlog : List WDone) : List Byte := wlog.flatMap fun d => d.src.take d.n

/-- number of bytes consumed by the completed reads and discards (peeks consume nothing) -/
def consumed : List RDone → Nat
  | [] => 0
  | d :: ds => (if d.peek then 0 else d.n) + consumed ds

/-- Every read, peek or discard returned bytes of the stream `S` at the position the previous ones left it at. -/
def ReadsFrom (S : List Byte) (pos : Nat) : List RDone → Prop
  | [] => True
  | d :: ds => d.n ≤ d.len ∧ pos + d.n ≤ S.length ∧ d.data = (if d.target then (S.drop pos).take d.n else []) ∧
      ReadsFrom S (if d.peek then pos else pos + d.n) ds

/-- bytes delivered by consuming reads, in order -/
def received (rlog : List RDone) : List Byte := (rlog.filter fun d => !d.peek).flatMap (·.data)

end Verif.Spsc.Spec
