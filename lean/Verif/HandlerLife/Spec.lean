import Verif.HandlerLife.Model
/-!
# A queue handler's life: what is claimed (C88)
-/
namespace Verif.HandlerLife

/-- no callback destroys the handler it is called by -/
def Tame (evs : List Ev) : Prop := ∀ ev ∈ evs, ev ≠ .wrk .suicide

/-- every block the library allocated for this handler has been given back -/
def Clean (s : St) : Prop :=
  s.hdl = false ∧ s.sem = false ∧ s.que = false ∧ s.thr = false ∧ s.buf = false

/-- the life of the callbacks: READY first, then messages, then STOP, nothing after it -/
inductive Shape : List Cb → Prop where
  | silent : Shape []
  | open (n : Nat) : Shape (.ready :: List.replicate n .msg)
  | closed (n : Nat) : Shape (.ready :: List.replicate n .msg ++ [.stop])

/-- READY and STOP were both reported -/
def Complete (t : List Cb) : Prop := ∃ n, t = .ready :: List.replicate n .msg ++ [.stop]

/-- the state reached from the call of the creation -/
def at_ (e : Env) (evs : List Ev) : St := run e .init evs

/-- the creation has not answered yet -/
def Creating : Main → Prop
  | .made _ => False
  | .kill _ c => c = true
  | .over => False
  | _ => True

/-- the user's call of the destruction has not returned -/
def Destroying (m : Main) : Prop := ∃ k, m = .kill k false

/-- how often the creating / destroying thread runs in a schedule -/
def turns (evs : List Ev) : Nat := evs.countP (fun ev => decide (ev = .main))

/-- how often the worker runs in a schedule -/
def works (evs : List Ev) : Nat := evs.countP (fun ev => decide (ev ≠ .main))

end Verif.HandlerLife
