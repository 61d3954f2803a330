import Verif.Common.Locked
/-!
# Calls bracketed by a mutex: what somebody without the lock sees, schedules to run

`Along`: a fact about the shared state that holds at every moment of a program run alone; `observed`: so it
holds at every moment of every interleaving.  `play`: run a given schedule (for examples).  `unlocked`: two programs with no lock.
-/
namespace Verif.Locked

/-- `Q` holds now and after each piece. -/
def Along {σ α : Type} (Q : σ → Prop) : Prog σ α → σ → Prop
  | .ret _, s => Q s
  | .act f k, s => Q s ∧ ∀ s', f s = some s' → Along Q (k s) s'

theorem Along.now {σ α : Type} {Q : σ → Prop} {p : Prog σ α} {s : σ} (h : Along Q p s) : Q s := by
  cases p with
  | ret a => exact h
  | act f k => exact h.1

theorem along_bind {σ α β : Type} {Q : σ → Prop} {p : Prog σ α} {g : α → Prog σ β} {s : σ} (h : Along Q p s)
    (hg : ∀ s' a, exec p s = some (s', a) → Along Q (g a) s') : Along Q (p >>= g) s := by
  show Along Q (p.bind g) s
  induction p generalizing s with
  | ret a => exact hg s a rfl
  | act f k ih =>
    refine ⟨h.1, fun s' e => ih s (h.2 s' e) fun s'' a e2 => hg s'' a ?_⟩
    simp only [exec, e, Option.bind_some, e2]

theorem along_pure {σ α : Type} {Q : σ → Prop} {a : α} {s : σ} (h : Q s) : Along Q (pure a : Prog σ α) s := h
theorem along_read {σ α : Type} {Q : σ → Prop} {g : σ → α} {s : σ} (h : Q s) : Along Q (read g) s :=
  ⟨h, fun _ e => by cases e; exact h⟩
theorem along_tryRead {σ α : Type} [Inhabited α] {Q : σ → Prop} {g : σ → Option α} {s : σ} (h : Q s) : Along Q (tryRead g) s := by
  refine ⟨h, fun s' e => ?_⟩
  rw [Option.map_eq_some_iff] at e
  obtain ⟨_, _, rfl⟩ := e
  exact h
theorem along_change {σ : Type} {Q : σ → Prop} {f : σ → Option σ} {s : σ} (h : Q s) (h2 : ∀ s', f s = some s' → Q s') :
    Along Q (change f) s := ⟨h, h2⟩
theorem along_check {σ : Type} {Q : σ → Prop} {b : Bool} {s : σ} (h : Q s) : Along Q (check b) s := by
  refine ⟨h, fun s' e => ?_⟩
  split at e
  · cases e; exact h
  · cases e

theorem Along.imp {σ α : Type} {Q Q' : σ → Prop} {p : Prog σ α} {s : σ} (h : Along Q p s) (hq : ∀ s, Q s → Q' s) : Along Q' p s := by
  induction p generalizing s with
  | ret a => exact hq _ h
  | act f k ih => exact ⟨hq _ h.1, fun s' e => ih s (h.2 s' e)⟩

variable {σ Op Out : Type}

/-- At every moment: if nobody is inside, the state is that of the sequential run; if a call is in progress, the state is one the
call goes through when it runs alone from there. -/
theorem observed {body : Op → Prog σ Out} {step : σ → Op → Option (σ × Out)} {s0 : σ} {n : Nat}
    (hb : ∀ op s, exec (body op) s = step s op) {Q : σ → Op → σ → Prop}
    (hq : ∀ ops s os op, seqRun step s0 ops = some (s, os) → Along (Q s op) (body op) s)
    {x : Sys σ Op Out} (h : Reach body s0 n x) :
    ∃ s, seqRun step s0 ((points x.trace).map (·.1)) = some (s, (points x.trace).map (·.2)) ∧ (x.lock = none → x.st = s) ∧
      ∀ (i : Nat) (op : Op) (p : Prog σ Out), x.ths[i]? = some (Th.inside op p) → Q s op x.st := by
  suffices H : ∃ s, seqRun step s0 ((points x.trace).map (·.1)) = some (s, (points x.trace).map (·.2)) ∧ (x.lock = none → x.st = s) ∧
      ∀ (i : Nat) (op : Op) (p : Prog σ Out), x.ths[i]? = some (Th.inside op p) → Along (Q s op) p x.st by
    obtain ⟨s, h1, h2, h3⟩ := H
    exact ⟨s, h1, h2, fun i op p hi => (h3 i op p hi).now⟩
  induction h with
  | start =>
    refine ⟨s0, rfl, fun _ => rfl, ?_⟩
    intro i op p hi
    have := (List.mem_replicate.mp (List.mem_of_getElem? hi)).2
    cases this
  | step x y hr hs ih =>
    obtain ⟨s, h1, h2, h3⟩ := ih
    obtain ⟨s', g1, g2, g3, g4⟩ := (Reach.inv hb hr).seq
    have hss : s' = s := by rw [h1] at g1; exact (Prod.mk.inj (Option.some.inj g1)).1.symm
    subst hss
    cases hs with
    | call i op hi =>
      refine ⟨s', by simpa [points_append, points] using h1, h2, ?_⟩
      intro j op' p hj
      rcases set_cases hj with ⟨_, e⟩ | ⟨_, e⟩
      · cases e
      · exact h3 j op' p e
    | acquire i op hi hl =>
      refine ⟨s', h1, fun e => (by cases e), ?_⟩
      intro j op' p hj
      rcases set_cases hj with ⟨rfl, e⟩ | ⟨_, e⟩
      · obtain ⟨rfl, rfl⟩ := Th.inside.inj e
        show Along _ _ x.st
        rw [h2 hl]
        exact hq _ _ _ _ h1
      · have := (g4 j op' p e).1
        rw [hl] at this; cases this
    | piece i op f k st hi hfs =>
      have hl := (g4 i _ _ hi).1
      refine ⟨s', h1, fun e => ?_, ?_⟩
      · have : x.lock = none := e
        rw [hl] at this; cases this
      · intro j op' p hj
        rcases set_cases hj with ⟨rfl, e⟩ | ⟨hne, e⟩
        · obtain ⟨rfl, rfl⟩ := Th.inside.inj e
          exact (h3 _ _ _ hi).2 _ hfs
        · have := (g4 j op' p e).1
          rw [hl] at this
          exact absurd (Option.some.inj this) hne
    | release i op o hi =>
      obtain ⟨hl, he⟩ := g4 i _ _ hi
      refine ⟨x.st, ?_, fun _ => rfl, ?_⟩
      · simp only [points_append, points, List.map_append, List.map_cons, List.map_nil]
        exact seqRun_snoc step _ op s0 s' x.st _ o h1 he.symm
      · intro j op' p hj
        rcases set_cases hj with ⟨_, e⟩ | ⟨hne, e⟩
        · cases e
        · have := (g4 j op' p e).1
          rw [hl] at this
          exact absurd (Option.some.inj this) hne
    | ret i o hi =>
      refine ⟨s', by simpa [points_append, points] using h1, h2, ?_⟩
      intro j op' p hj
      rcases set_cases hj with ⟨_, e⟩ | ⟨_, e⟩
      · cases e
      · exact h3 j op' p e

/-! ### Schedules -/

/-- One move: thread `i` calls `op` (if given), or goes on. -/
def move (body : Op → Prog σ Out) (x : Sys σ Op Out) : Nat × Option Op → Option (Sys σ Op Out)
  | (i, some op) => match x.ths[i]? with
    | some .idle => some { x with
        ths := x.ths.set i (.wants op)
        trace := x.trace ++ [.call i op] }
    | _ => none
  | (i, none) => match x.ths[i]? with
    | some (.wants op) => match x.lock with
      | none => some { x with
        ths := x.ths.set i (.inside op (body op))
        lock := some i }
      | some _ => none
    | some (.inside op (.act f k)) => (f x.st).map fun s => { x with
        st := s
        ths := x.ths.set i (.inside op (k x.st)) }
    | some (.inside op (.ret o)) => some { x with
        ths := x.ths.set i (.left o)
        lock := none
        trace := x.trace ++ [.point i op o] }
    | some (.left o) => some { x with
        ths := x.ths.set i .idle
        trace := x.trace ++ [.ret i o] }
    | _ => none

theorem move_step {body : Op → Prog σ Out} {x y : Sys σ Op Out} {mv : Nat × Option Op} (h : move body x mv = some y) :
    Step body x (some y) := by
  obtain ⟨i, op⟩ := mv
  cases op with
  | some op =>
    simp only [move] at h
    split at h
    · cases h; exact .call i op (by assumption)
    · cases h
  | none =>
    simp only [move] at h
    split at h
    · rename_i op hi
      split at h
      · cases h; exact .acquire i op hi (by assumption)
      · cases h
    · rename_i op f k hi
      rw [Option.map_eq_some_iff] at h
      obtain ⟨s, e, rfl⟩ := h
      exact .piece i op f k s hi e
    · rename_i op o hi
      cases h; exact .release i op o hi
    · rename_i o hi
      cases h; exact .ret i o hi
    · cases h

/-- A schedule; moves that are not possible are skipped. -/
def play (body : Op → Prog σ Out) (x : Sys σ Op Out) : List (Nat × Option Op) → Sys σ Op Out
  | [] => x
  | mv :: mvs => play body ((move body x mv).getD x) mvs

theorem play_reach {body : Op → Prog σ Out} {s0 : σ} {n : Nat} (mvs : List (Nat × Option Op)) : ∀ {x : Sys σ Op Out},
    Reach body s0 n x → Reach body s0 n (play body x mvs) := by
  induction mvs with
  | nil => intro x h; exact h
  | cons mv mvs ih =>
    intro x h
    unfold play
    apply ih
    cases e : move body x mv with
    | none => exact h
    | some z => exact h.step x z (move_step e)

/-- Two programs with no lock: a schedule says whose piece comes next (`true`: the first). -/
def unlocked {σ α β : Type} : Prog σ α → Prog σ β → List Bool → σ → Option (σ × Prog σ α × Prog σ β)
  | p, q, [], s => some (s, p, q)
  | .act f k, q, true :: bs, s => (f s).bind fun s' => unlocked (k s) q bs s'
  | .ret a, q, true :: bs, s => unlocked (.ret a) q bs s
  | p, .act f k, false :: bs, s => (f s).bind fun s' => unlocked p (k s) bs s'
  | p, .ret b, false :: bs, s => unlocked p (.ret b) bs s

/-- The state and the results, if both have ended. -/
def ended {σ α β : Type} : Option (σ × Prog σ α × Prog σ β) → Option (σ × α × β)
  | some (s, .ret a, .ret b) => some (s, a, b)
  | _ => none

end Verif.Locked
