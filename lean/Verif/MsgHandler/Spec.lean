import Verif.MsgHandler.Model
/-! # Specification: what was accepted, what is being pushed -/
namespace Verif.MsgHandler.Spec
open MsgQueue (Code)

/-- the bytes a `queue_msg_t` denotes: its 16-byte header and `obj_len` bytes behind it -/
def content (m : Msg) : List Byte := m.obj.take (16 + objLen m.obj).toNat

/-- messages whose push returned success, in order -/
def accepted (r : List (Msg × Code)) : List (List Byte) :=
  r.filterMap fun (m, c) => if c = .success then some (content m) else none

/-- the message of the push call in progress, if any -/
def inProgress : Prod → List (List Byte)
  | .idle => []
  | .pushing m => [content m]
  | .posting m => [content m]

/-- the worker sleeps: it is at the semaphore and there is no token -/
def Asleep (s : Sys) : Prop := (s.wrk = .top .success ∨ s.wrk = .top .empty) ∧ s.sem = 0

end Verif.MsgHandler.Spec
