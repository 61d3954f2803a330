import Verif.Global.Model
/-! # Specification of the global initialisation -/
namespace Verif.Global.Spec
open Verif.Portable

/-- the calls of `lcu_global_init` not yet undone by a call of `lcu_global_cleanup` (a call too many is ignored), and
the calls of the users of the locks, which do not matter -/
def outstanding : Nat → List Op → Nat
  | n, [] => n
  | n, .init _ :: h => outstanding (n + 1) h
  | n, .cleanup _ :: h => outstanding (n - 1) h
  | n, _ :: h => outstanding n h

/-- the largest number of outstanding calls at any time of the history -/
def peak : Nat → List Op → Nat
  | n, [] => n
  | n, .init _ :: h => max n (peak (n + 1) h)
  | n, .cleanup _ :: h => max n (peak (n - 1) h)
  | n, _ :: h => max n (peak n h)

/-- only `lcu_global_init`, `lcu_global_cleanup` and users of the locks -/
def Plain (h : List Op) : Prop :=
  ∀ o ∈ h, (∃ e, o = .init e) ∨ (∃ e, o = .cleanup e) ∨ (∃ e f, o = .log e f) ∨ ∃ i w e f, o = .time i w e f

/-- the system can create a lock -/
def Ok (e : Env) : Prop := e.oom = false ∧ e.ret = 0

/-- the system can create all locks in every initialisation -/
def Good (h : List Op) : Prop := ∀ o ∈ h, ∀ e, o = .init e → Ok e.rw0 ∧ Ok e.rw1 ∧ Ok e.mtx

/-- the three locks of the library -/
inductive Slot : Kind → Nat → Prop
  | rw0 : Slot .rwlock 0
  | rw1 : Slot .rwlock 1
  | mtx : Slot .mutex 0

/-- before `main`: the library's handles are NULL; the program may have other handles -/
def Start (g : G) : Prop := Reach g.p ∧ g.times = 0 ∧ ∀ k v, Slot k v → g.p.var k v = none

end Verif.Global.Spec
