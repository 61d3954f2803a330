import Verif.Thpool.Model
/-! # Vocabulary of the properties C53 and C54

A job is identified by its position in `added`, the list of jobs in the order in which they entered the queue. -/
namespace Verif.Thpool
variable {J : Type}

/-- a move of a thread that is inside the library or a job function (no new call, no spurious wake-up) -/
def Ev.Internal : Ev → Prop
  | .wrk _ | .sub _ | .wt _ => True
  | _ => False

/-- moves of the pool's threads and of the thread inside `thpool_destroy` -/
def Ev.Own : Ev → Prop
  | .wrk _ | .sub _ | .wt _ | .dst => True
  | _ => False

/-- no thread inside the library can move -/
def Stuck (s : Sys J) : Prop := ∀ e u, e.Internal → ¬ Step e s u

/-- every worker sleeps on the semaphore -/
def AllAsleep (s : Sys J) : Prop := ∀ (i : Nat) x, s.wrk[i]? = some x → x = .asleep

/-- worker `i` is inside a job function -/
def Running (s : Sys J) (i : Nat) : Prop := ∃ p id, s.wrk[i]? = some (.running p id)

/-- thread `t` is not inside `thpool_wait` -/
def NotWaiting (s : Sys J) (t : Nat) : Prop := s.wt[t]? = some .idle

end Verif.Thpool
