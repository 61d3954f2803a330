import Verif.Slog.Model
import Verif.XlogMt.Redirect
/-!
# C109: redirection through the facade

`LOG_STD2FILE`, `LOG_BACK2STD` and lines, with either logger (inc/log/logger_facade_slog.h 11-12,
inc/log/logger_facade_xlog.h 15-17); files are named by numbers, `path` gives their names.
-/
namespace Verif.LogFacade.Redirect
open XlogMt.Redirect (Op St)

/-- the statement in the slog build; a line is an ERROR message at the initial level -/
def opS (path text : Nat → List Byte) : Op → Slog.Op
  | .toFile p ok => .toFile (p.map path) ok
  | .back ok => .back ok
  | .line id => .log .e [] (text id)

/-- the two loggers in corresponding states -/
structure Sim (path : Nat → List Byte) (x : St) (s : Slog.St) : Prop where
  min : s.min = 1
  fp : s.fp = x.fp
  dest : s.dest = if x.isOpen then some (x.dest.map path) else none

theorem step_sim {path text : Nat → List Byte} {x x' : St} {s : Slog.St} (h : Sim path x s) {o : Op} {l}
    (hs : XlogMt.Redirect.step x o = some (x', l)) :
    ∃ s' outs, Slog.step s (opS path text o) = some (s', outs) ∧ Sim path x' s' ∧
      outs.map (·.dest) = l.map (·.1.map path) := by
  obtain ⟨smin, sdest, sfp⟩ := s
  obtain ⟨xo, xd, xf⟩ := x
  obtain ⟨h1, h2, h3⟩ := h
  simp only at h1 h2 h3
  subst h1 h2 h3
  cases o with
  | toFile p ok =>
    cases p with
    | none =>
      simp [XlogMt.Redirect.step, XlogMt.Redirect.toFile] at hs
      obtain ⟨rfl, rfl⟩ := hs
      exact ⟨_, [], rfl, ⟨rfl, rfl, rfl⟩, rfl⟩
    | some p =>
      cases sfp <;> cases xo <;> cases ok <;>
        simp [XlogMt.Redirect.step, XlogMt.Redirect.toFile, St.use, St.freopen] at hs
      all_goals
        obtain ⟨rfl, rfl⟩ := hs
        exact ⟨_, [], rfl, ⟨rfl, rfl, rfl⟩, rfl⟩
  | back ok =>
    cases sfp <;> cases xo <;> cases ok <;>
      simp [XlogMt.Redirect.step, XlogMt.Redirect.back, St.use, St.freopen] at hs
    all_goals
      obtain ⟨rfl, rfl⟩ := hs
      exact ⟨_, [], rfl, ⟨rfl, rfl, rfl⟩, rfl⟩
  | line id =>
    cases xo <;> simp [XlogMt.Redirect.step, St.use] at hs
    obtain ⟨rfl, rfl⟩ := hs
    exact ⟨_, _, rfl, ⟨rfl, rfl, rfl⟩, rfl⟩

theorem run_sim {path text : Nat → List Byte} {ops : List Op} {x x' : St} {s : Slog.St} (h : Sim path x s) {l}
    (hr : XlogMt.Redirect.run x ops = some (x', l)) :
    ∃ s' outs, Slog.run s (ops.map (opS path text)) = some (s', outs) ∧ outs.map (·.dest) = l.map (·.1.map path) := by
  induction ops generalizing x s l with
  | nil =>
    simp [XlogMt.Redirect.run] at hr
    obtain ⟨rfl, rfl⟩ := hr
    exact ⟨s, [], rfl, rfl⟩
  | cons o os ih =>
    simp only [XlogMt.Redirect.run, Option.bind_eq_some_iff, Option.map_eq_some_iff, Prod.mk.injEq] at hr
    obtain ⟨⟨x1, l1⟩, h1, ⟨x2, l2⟩, h2, rfl, rfl⟩ := hr
    obtain ⟨s1, o1, e1, k1, d1⟩ := step_sim (text := text) h h1
    obtain ⟨s2, o2, e2, d2⟩ := ih k1 h2
    exact ⟨s2, o1 ++ o2, by simp [Slog.run, e1, e2], by simp [d1, d2]⟩

/-- **C109** (redirection): a program of redirections and messages that is defined with xlog is defined with slog, and
every message goes to the same destination. -/
theorem redirect_agrees (path text : Nat → List Byte) (ops : List Op) (x : St) (l)
    (h : XlogMt.Redirect.run St.init ops = some (x, l)) :
    ∃ s outs, Slog.run .init (ops.map (opS path text)) = some (s, outs) ∧ outs.map (·.dest) = l.map (·.1.map path) :=
  run_sim (x := St.init) ⟨rfl, rfl, rfl⟩ h

/-- FINDING: not the other way round: a second `LOG_STD2FILE` works with slog and is undefined with xlog, which closes
`stdout` first. -/
theorem redirect_builds_differ (path text : Nat → List Byte) (p q id : Nat) :
    XlogMt.Redirect.run St.init [.toFile (some p) true, .toFile (some q) true, .line id] = none ∧
    ∃ s out, Slog.run .init ([.toFile (some p) true, .toFile (some q) true, .line id].map (opS path text)) = some (s, [out]) ∧
      out.dest = some (path q) :=
  ⟨rfl, _, _, rfl, rfl⟩

/-- The premise can be met. -/
example : ∃ x, XlogMt.Redirect.run St.init [.line 1, .toFile (some 7) true, .line 2] = some (x, [(none, 1), (some 7, 2)]) :=
  ⟨_, rfl⟩

end Verif.LogFacade.Redirect
