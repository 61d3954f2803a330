import Verif.RingBufSpsc.Model
/-! # Specification: a byte stream with a bounded number of bytes in flight -/
namespace Verif.RingBufSpsc.Spec

/-- bytes accepted by the completed writes, in order (`ret` = the value the write returned) -/
def sent (wlog : List WDone) : List Byte := wlog.flatMap fun d => d.src.take d.ret

/-- number of bytes consumed by the completed reads and discards (peeks consume nothing) -/
def consumed : List RDone → Nat
  | [] => 0
  | d :: ds => (if d.peek then 0 else d.ret) + consumed ds

/-- bytes sent and not consumed -/
def inFlight (s : Conf) : Nat := (sent s.wlog).length - consumed s.rlog

/-- Every read, peek or discard returned 0 or its full length, and put into its target exactly that many bytes of the
stream `S` at the position the previous ones left it at. -/
def ReadsFrom (S : List Byte) (pos : Nat) : List RDone → Prop
  | [] => True
  | d :: ds => (d.ret = d.len ∨ d.ret = 0) ∧ pos + d.ret ≤ S.length ∧
      d.data = (if d.target then (S.drop pos).take d.ret else []) ∧
      ReadsFrom S (if d.peek then pos else pos + d.ret) ds

/-- bytes delivered by consuming reads, in order -/
def received (rlog : List RDone) : List Byte := (rlog.filter fun d => !d.peek).flatMap (·.data)

end Verif.RingBufSpsc.Spec
