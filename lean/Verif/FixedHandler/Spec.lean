import Verif.FixedHandler.Model
/-! # Specification: accepted messages and callback invocations -/
namespace Verif.FixedHandler.Spec
open MsgQueue (Code)
variable {one : BitVec 32}

/-- messages whose push returned success, in order -/
def accepted (r : List (Msg one × Code)) : List (List Byte) :=
  r.filterMap fun (m, c) => if c = .success then some m.body else none

/-- the message of the push call in progress, if any -/
def inProgress : Prod one → List (List Byte)
  | .idle => []
  | .pushing m => [m.body]
  | .counting m => [m.body]
  | .posting m => [m.body]

/-- all messages so far, numbered from 0 in push order; a push in progress comes last -/
def messages (s : Sys one) : List (List Byte) := accepted s.results ++ inProgress s.prod

/-- fewer than 2^64 - 1 messages so far: the `size_t` token has not wrapped -/
def NoWrap (s : Sys one) : Prop := (messages s).length + 1 < 2 ^ 64

/-- the worker sleeps: it is at the semaphore and there is no token -/
def Asleep (s : Sys one) : Prop := s.wrk = .top ∧ s.sem = 0

/-- one complete call of `fixed_msg_queue_handler_clear`, from its entry in `s` to its return in `t`; everybody else
may move meanwhile -/
def ClearCall (s t : Sys one) : Prop :=
  ∃ s1 s2, s.clr = none ∧ Step .clr s s1 ∧ Steps (· ≠ .clr) s1 s2 ∧ Step .clr s2 t

/-- message number `k` was handed to the callback -/
def Handled (s : Sys one) (k : Nat) : Prop := ∃ b, (k, b) ∈ s.delivered

end Verif.FixedHandler.Spec
