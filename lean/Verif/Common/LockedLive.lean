import Verif.Common.LockedMore
import Verif.Common.Fair
/-!
# Calls bracketed by a mutex: every call returns, in every fair infinite execution

Fairness: a thread that can go on again and again goes on (strong: a thread waiting for the lock can go on only in the moments
in which the lock is free, and others may take it before).  Threads may begin new calls for ever.
-/
namespace Verif.Locked
open Verif.Fair (Exec Enabled)

variable {σ Op Out : Type}

/-- One labelled step: thread `i` begins a call (`(i, some op)`) or goes on with its call (`(i, none)`). -/
def LStep (body : Op → Prog σ Out) (mv : Nat × Option Op) (x y : Sys σ Op Out) : Prop := move body x mv = some y

/-- The labelled steps are the steps. -/
theorem step_iff_lstep {body : Op → Prog σ Out} {x y : Sys σ Op Out} : Step body x (some y) ↔ ∃ mv, LStep body mv x y := by
  constructor
  · intro h
    cases h with
    | call i op hi => exact ⟨(i, some op), by simp [LStep, move, hi]⟩
    | acquire i op hi hl => exact ⟨(i, none), by simp [LStep, move, hi, hl]⟩
    | piece i op f k s hi hf => exact ⟨(i, none), by simp [LStep, move, hi, hf]⟩
    | release i op o hi => exact ⟨(i, none), by simp [LStep, move, hi]⟩
    | ret i o hi => exact ⟨(i, none), by simp [LStep, move, hi]⟩
  · rintro ⟨mv, h⟩
    exact move_step h

/-- Every thread that can go on with its call again and again goes on. -/
def FairRun {body : Op → Prog σ Out} (x : Exec (LStep body)) : Prop := ∀ i : Nat, x.Strong (i, none)

section
variable {body : Op → Prog σ Out} {s0 : σ} {n : Nat} {x : Exec (LStep body)}

theorem run_reach (h0 : Reach body s0 n (x.st 0)) (k : Nat) : Reach body s0 n (x.st k) := by
  induction k with
  | zero => exact h0
  | succ k ih =>
    cases hl : x.lab k with
    | none => rw [x.idle k hl]; exact ih
    | some a => exact .step _ _ ih (move_step (x.ok k a hl))

theorem move_others {s u : Sys σ Op Out} {mv : Nat × Option Op} (h : move body s mv = some u) {i : Nat} (hi : i ≠ mv.1) :
    u.ths[i]? = s.ths[i]? := by
  obtain ⟨j, op⟩ := mv
  have hj : j ≠ i := fun e => hi e.symm
  have key : ∀ t, (s.ths.set j t)[i]? = s.ths[i]? := fun t => by rw [List.getElem?_set, if_neg hj]
  cases op with
  | some op =>
    simp only [move] at h
    split at h
    · cases h; exact key _
    · cases h
  | none =>
    simp only [move] at h
    split at h
    · split at h
      · cases h; exact key _
      · cases h
    · rw [Option.map_eq_some_iff] at h
      obtain ⟨s', _, rfl⟩ := h
      exact key _
    · cases h; exact key _
    · cases h; exact key _
    · cases h

/-- a thread in a call stays where it is until it goes on -/
theorem stay1 {k i : Nat} {t : Th σ Op Out} (h : (x.st k).ths[i]? = some t) (ht : t ≠ .idle) :
    (x.st (k + 1)).ths[i]? = some t ∨ x.lab k = some (i, none) := by
  cases hl : x.lab k with
  | none => left; rw [x.idle k hl]; exact h
  | some mv =>
    have hs := x.ok k mv hl
    by_cases hi : i = mv.1
    · obtain ⟨j, op⟩ := mv
      simp only at hi
      subst hi
      cases op with
      | none => exact .inr rfl
      | some op =>
        simp only [LStep, move, h] at hs
        cases t with
        | idle => exact absurd rfl ht
        | _ => cases hs
    · left; rw [move_others hs hi]; exact h

/-- either it is still there, or it has gone on -/
theorem stay {k i : Nat} {t : Th σ Op Out} (h : (x.st k).ths[i]? = some t) (ht : t ≠ .idle) (d : Nat) :
    (x.st (k + d)).ths[i]? = some t ∨ ∃ j, k ≤ j ∧ j < k + d ∧ (x.st j).ths[i]? = some t ∧ x.lab j = some (i, none) := by
  induction d with
  | zero => exact .inl h
  | succ d ih =>
    rcases ih with h1 | ⟨j, h1, h2, h3⟩
    · rcases stay1 h1 ht with h2 | h2
      · exact .inl h2
      · exact .inr ⟨k + d, by omega, by omega, h1, h2⟩
    · exact .inr ⟨j, h1, by omega, h3⟩

/-- a thread that can go on again and again as long as it is there does go on from there -/
theorem goes (fair : FairRun x) {k i : Nat} {t : Th σ Op Out} (h : (x.st k).ths[i]? = some t) (ht : t ≠ .idle)
    (en : ∀ m, k ≤ m → ∃ j, m ≤ j ∧ ((x.st j).ths[i]? = some t → Enabled (LStep body) (i, none) (x.st j))) :
    ∃ j, k ≤ j ∧ (x.st j).ths[i]? = some t ∧ x.lab j = some (i, none) := by
  apply Classical.byContradiction
  intro hn
  have here : ∀ m, k ≤ m → (x.st m).ths[i]? = some t := by
    intro m hm
    rcases stay h ht (m - k) with h1 | ⟨j, h1, _, h2⟩
    · rwa [show k + (m - k) = m by omega] at h1
    · exact absurd ⟨j, h1, h2⟩ hn
  obtain ⟨j, h1, h2⟩ := fair i (fun m => by
    obtain ⟨j, h1, h2⟩ := en (max k m) (by omega)
    exact ⟨j, by omega, h2 (here j (by omega))⟩) k
  exact hn ⟨j, h1, here j h1, h2⟩

theorem set_here {l : List (Th σ Op Out)} {i : Nat} {t u : Th σ Op Out} (h : l[i]? = some t) : (l.set i u)[i]? = some u := by
  have : i < l.length := by
    rcases Nat.lt_or_ge i l.length with h1 | h1
    · exact h1
    · rw [List.getElem?_eq_none h1] at h; cases h
  rw [List.getElem?_set, if_pos rfl, if_pos this]

/-- a thread that has the lock gives it back -/
theorem leaves (safe : ∀ k, ¬ Step body (x.st k) none) (fair : FairRun x)
    (p : Prog σ Out) : ∀ {k i : Nat} {op : Op}, (x.st k).ths[i]? = some (.inside op p) →
      ∃ m o, k ≤ m ∧ (x.st m).ths[i]? = some (.left o) ∧ (x.st m).lock = none := by
  induction p with
  | ret o =>
    intro k i op h
    obtain ⟨j, h1, h2, h3⟩ := goes fair h nofun fun m _ => ⟨m, Nat.le_refl _, fun hm =>
      ⟨_, by simp only [LStep, move, hm]; rfl⟩⟩
    have hs := x.ok j _ h3
    simp only [LStep, move, h2] at hs
    refine ⟨j + 1, o, by omega, ?_, ?_⟩
    · rw [← Option.some.inj hs]; exact set_here h2
    · rw [← Option.some.inj hs]
  | act f c ih =>
    intro k i op h
    obtain ⟨j, h1, h2, h3⟩ := goes fair h nofun fun m _ => ⟨m, Nat.le_refl _, fun hm => by
      cases e : f (x.st m).st with
      | none => exact absurd (.fault i op f c hm e) (safe m)
      | some s => exact ⟨_, by simp only [LStep, move, hm, e]; rfl⟩⟩
    have hs := x.ok j _ h3
    simp only [LStep, move, h2] at hs
    obtain ⟨s, _, hu⟩ := Option.map_eq_some_iff.1 hs
    have : (x.st (j + 1)).ths[i]? = some (.inside op (c (x.st j).st)) := by rw [← hu]; exact set_here h2
    obtain ⟨m, o, h4, h5⟩ := ih _ this
    exact ⟨m, o, by omega, h5⟩

/-- the lock is free again and again -/
theorem lock_freed (safe : ∀ k, ¬ Step body (x.st k) none) (h0 : Reach body s0 n (x.st 0)) (fair : FairRun x) (k : Nat) :
    ∃ m, k ≤ m ∧ (x.st m).lock = none := by
  cases hl : (x.st k).lock with
  | none => exact ⟨k, Nat.le_refl _, hl⟩
  | some j =>
    obtain ⟨_, _, _, h3, _⟩ := ((run_reach h0 k).inv (step := fun s op => exec (body op) s) fun _ _ => rfl).seq
    obtain ⟨op, p, hj⟩ := h3 j hl
    obtain ⟨m, _, h4, _, h5⟩ := leaves safe fair p hj
    exact ⟨m, h4, h5⟩

/-- **Every call returns.**  If nothing undefined happens: in every fair infinite execution, with any number of threads that may
begin new calls for ever, every call in progress comes to its return. -/
theorem returns (safe : ∀ k, ¬ Step body (x.st k) none) (h0 : Reach body s0 n (x.st 0)) (fair : FairRun x)
    {k i : Nat} {t : Th σ Op Out} (hi : (x.st k).ths[i]? = some t) (ht : t ≠ .idle) :
    ∃ m o, k ≤ m ∧ (x.st m).ths[i]? = some (.left o) ∧ x.lab m = some (i, none) ∧ (x.st (m + 1)).ths[i]? = some .idle := by
  have fin : ∀ {k : Nat} {o : Out}, (x.st k).ths[i]? = some (.left o) →
      ∃ m o, k ≤ m ∧ (x.st m).ths[i]? = some (.left o) ∧ x.lab m = some (i, none) ∧ (x.st (m + 1)).ths[i]? = some .idle := by
    intro k o h
    obtain ⟨j, h1, h2, h3⟩ := goes fair h nofun fun m _ => ⟨m, Nat.le_refl _, fun hm =>
      ⟨_, by simp only [LStep, move, hm]; rfl⟩⟩
    have hs := x.ok j _ h3
    simp only [LStep, move, h2] at hs
    exact ⟨j, o, h1, h2, h3, by rw [← Option.some.inj hs]; exact set_here h2⟩
  have mid : ∀ {k : Nat} {op : Op} {p : Prog σ Out}, (x.st k).ths[i]? = some (.inside op p) →
      ∃ m o, k ≤ m ∧ (x.st m).ths[i]? = some (.left o) ∧ x.lab m = some (i, none) ∧ (x.st (m + 1)).ths[i]? = some .idle := by
    intro k op p h
    obtain ⟨m, o, h1, h2, _⟩ := leaves safe fair p h
    obtain ⟨m', o', h3, h4⟩ := fin h2
    exact ⟨m', o', by omega, h4⟩
  cases t with
  | idle => exact absurd rfl ht
  | left o => exact fin hi
  | inside op p => exact mid hi
  | wants op =>
    obtain ⟨j, h1, h2, h3⟩ := goes fair hi nofun fun m _ => by
      obtain ⟨j, h4, h5⟩ := lock_freed safe h0 fair m
      exact ⟨j, h4, fun hm => ⟨_, by simp only [LStep, move, hm, h5]; rfl⟩⟩
    have hs := x.ok j _ h3
    simp only [LStep, move, h2] at hs
    split at hs
    · have : (x.st (j + 1)).ths[i]? = some (.inside op (body op)) := by rw [← Option.some.inj hs]; exact set_here h2
      obtain ⟨m, o, h6, h7⟩ := mid this
      exact ⟨m, o, by omega, h7⟩
    · cases hs

end

/-! ### A concrete fair execution -/

/-- Carry out the moves, then nothing: a fair execution if every call has returned. -/
theorem played {body : Op → Prog σ Out} {mvs : List (Nat × Option Op)} {s u : Sys σ Op Out}
    (h : Fair.runs (fun mv s => move body s mv) mvs s = some u) (hu : ∀ t ∈ u.ths, t = .idle) :
    ∃ x : Exec (LStep body), x.st 0 = s ∧ FairRun x ∧ (∀ k, x.lab k = mvs[k]?) ∧
      ∀ k, x.st k = (Fair.runs (fun mv s => move body s mv) (mvs.take k) s).getD s := by
  obtain ⟨x, h1, _, h3, h4, h5⟩ := Fair.exists_finite (step := LStep body) id (fun mv s => move body s mv) (fun _ _ _ h => h) h
  refine ⟨x, h1, fun i => h5 _ fun v hv => ?_, fun k => by rw [h3]; simp, h4⟩
  simp only [LStep, move] at hv
  cases e : u.ths[i]? with
  | none => rw [e] at hv; cases hv
  | some t =>
    have := hu t (List.mem_of_getElem? e)
    subst this
    rw [e] at hv; cases hv

/-- The possible moves of a schedule (`play` skips the others). -/
def feasible (body : Op → Prog σ Out) (x : Sys σ Op Out) : List (Nat × Option Op) → List (Nat × Option Op)
  | [] => []
  | mv :: mvs => match move body x mv with
    | none => feasible body x mvs
    | some y => mv :: feasible body y mvs

theorem runs_feasible {body : Op → Prog σ Out} (mvs : List (Nat × Option Op)) : ∀ (x : Sys σ Op Out),
    Fair.runs (fun mv s => move body s mv) (feasible body x mvs) x = some (play body x mvs) := by
  induction mvs with
  | nil => intro x; rfl
  | cons mv mvs ih =>
    intro x
    simp only [feasible, play]
    cases e : move body x mv with
    | none => exact ih x
    | some y => simp only [Fair.runs, e, Option.bind_some, Option.getD_some]; exact ih y

theorem feasible_append {body : Op → Prog σ Out} (a b : List (Nat × Option Op)) : ∀ (x : Sys σ Op Out),
    feasible body x (a ++ b) = feasible body x a ++ feasible body (play body x a) b := by
  induction a with
  | nil => intro x; rfl
  | cons mv a ih =>
    intro x
    simp only [List.cons_append, feasible, play]
    cases e : move body x mv with
    | none => simp only [Option.getD_none]; exact ih x
    | some y => simp only [Option.getD_some, List.cons_append, ih y]

/-- A schedule after which every call has returned is a fair execution; it passes through the state after each
first part `a` of the schedule. -/
theorem play_fair {body : Op → Prog σ Out} (a b : List (Nat × Option Op)) {s : Sys σ Op Out}
    (hu : ((play body s (a ++ b)).ths.all fun | .idle => true | _ => false) = true) :
    ∃ x : Exec (LStep body), x.st 0 = s ∧ FairRun x ∧ ∃ k, x.st k = play body s a := by
  obtain ⟨x, h1, h2, _, h4⟩ := played (runs_feasible (body := body) (a ++ b) s) fun t ht => by
    have := List.all_eq_true.1 hu t ht
    cases t with
    | idle => rfl
    | _ => cases this
  refine ⟨x, h1, h2, (feasible body s a).length, ?_⟩
  rw [h4, feasible_append, List.take_left, runs_feasible]
  rfl

/-- Is a thread in a call? -/
def busy (t : Option (Th σ Op Out)) : Bool := match t with
  | some .idle => false
  | none => false
  | _ => true

end Verif.Locked
