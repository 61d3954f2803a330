import Verif.Cond.Props
import Verif.Common.Fair
/-!
# C63: every promised wake-up is delivered, in every fair infinite execution

The steps of `Model.lean` with their names.  Fairness: a thread inside a call that can go on again and again goes on (strong
fairness: `WaitForSingleObject` succeeds only in moments in which the semaphore is positive, and other waiters may take the
token; the same for the user mutex), and whoever holds the user mutex again and again, outside any call, unlocks it at some
time.  New calls of `wait`, `signal` and `broadcast` may come all the time.
-/
namespace Verif.Cond
open Verif.Tot
open Verif.Fair (Exec Enabled)

/-- the steps of `Step N`, labelled -/
inductive AStep (N : Nat) : Ev → Sys → Sys → Prop where
  | run {s s' : Sys} (t : Nat) (ht : t < N) (h : run s t = some s') : AStep N (.run t) s s'
  | lock {s : Sys} (t : Nat) (ht : t < N) (h : s.th t = .idle) : AStep N (.lock t) s (s.go t .want)
  | unlock {s : Sys} (t : Nat) (ht : t < N) (h : s.th t = .held) : AStep N (.unlock t) s ({ s with um := none }.go t .idle)
  | wait {s : Sys} (t : Nat) (ht : t < N) (h : s.th t = .held) : AStep N (.wait t) s (s.go t .c0)
  | notifyIdle {s : Sys} (t : Nat) (all : Bool) (ht : t < N) (h : s.th t = .idle) :
      AStep N (.notify t all) s (s.go t (.sig all false))
  | notifyHeld {s : Sys} (t : Nat) (all : Bool) (ht : t < N) (h : s.th t = .held) :
      AStep N (.notify t all) s (s.go t (.sig all true))

theorem step_iff {N : Nat} {s s' : Sys} : Step N s s' ↔ ∃ a, AStep N a s s' := by
  constructor
  · intro h
    cases h with
    | run t ht h => exact ⟨_, .run t ht h⟩
    | lock t ht h => exact ⟨_, .lock t ht h⟩
    | unlock t ht h => exact ⟨_, .unlock t ht h⟩
    | wait t ht h => exact ⟨_, .wait t ht h⟩
    | notifyIdle t a ht h => exact ⟨_, .notifyIdle t a ht h⟩
    | notifyHeld t a ht h => exact ⟨_, .notifyHeld t a ht h⟩
  · rintro ⟨a, h⟩
    cases h with
    | run t ht h => exact .run t ht h
    | lock t ht h => exact .lock t ht h
    | unlock t ht h => exact .unlock t ht h
    | wait t ht h => exact .wait t ht h
    | notifyIdle t a ht h => exact .notifyIdle t a ht h
    | notifyHeld t a ht h => exact .notifyHeld t a ht h

theorem AStep.step {N : Nat} {a : Ev} {s s' : Sys} (h : AStep N a s s') : Step N s s' := step_iff.2 ⟨a, h⟩

/-- every call that can go on again and again goes on; who holds the user mutex again and again, unlocks it -/
def FairRun {N : Nat} (x : Exec (AStep N)) : Prop := ∀ t, x.Strong (.run t) ∧ x.Strong (.unlock t)

/-- places from which a call goes on whatever the others do -/
def free : Pc → Bool
  | .c0 | .c1 _ | .c3 _ | .c4 _ | .sig _ _ | .post _ _ => true
  | _ => false

theorem free_run {s : Sys} {t : Nat} (h : free (s.th t) = true) : ∃ u, run s t = some u := by
  simp only [run]
  cases e : s.th t with
  | sig b d =>
    cases b <;> simp only <;> split <;> exact ⟨_, rfl⟩
  | c3 g =>
    simp only
    split
    · split <;> exact ⟨_, rfl⟩
    · exact ⟨_, rfl⟩
  | c0 => exact ⟨_, rfl⟩
  | c1 g => exact ⟨_, rfl⟩
  | c4 g => exact ⟨_, rfl⟩
  | post n d => exact ⟨_, rfl⟩
  | idle => rw [e] at h; simp [free] at h
  | want => rw [e] at h; simp [free] at h
  | held => rw [e] at h; simp [free] at h
  | c2 g => rw [e] at h; simp [free] at h
  | c5 => rw [e] at h; simp [free] at h

/-- a step moves one thread -/
theorem run_others {s u : Sys} {t k : Nat} (h : run s t = some u) (hk : k ≠ t) : u.th k = s.th k := by
  simp only [run] at h
  split at h <;> (try split at h) <;> (try split at h) <;>
    first | (cases h; exact upd_other _ _ hk) | simp at h

theorem moves {N : Nat} {a : Ev} {s u : Sys} (h : AStep N a s u) (t : Nat) :
    u.th t = s.th t ∨ (a = .run t ∧ run s t = some u) ∨ s.th t = .idle ∨ s.th t = .held := by
  cases h with
  | run k ht h =>
    by_cases e : t = k
    · subst e; exact .inr (.inl ⟨rfl, h⟩)
    · exact .inl (run_others h e)
  | lock k ht h =>
    by_cases e : t = k
    · subst e; exact .inr (.inr (.inl h))
    · exact .inl (upd_other _ _ e)
  | unlock k ht h =>
    by_cases e : t = k
    · subst e; exact .inr (.inr (.inr h))
    · exact .inl (upd_other _ _ e)
  | wait k ht h =>
    by_cases e : t = k
    · subst e; exact .inr (.inr (.inr h))
    · exact .inl (upd_other _ _ e)
  | notifyIdle k a ht h =>
    by_cases e : t = k
    · subst e; exact .inr (.inr (.inl h))
    · exact .inl (upd_other _ _ e)
  | notifyHeld k a ht h =>
    by_cases e : t = k
    · subst e; exact .inr (.inr (.inr h))
    · exact .inl (upd_other _ _ e)

/-- nothing is taken back -/
theorem grows {N : Nat} {s u : Sys} (st : Step N s u) : s.woken ≤ u.woken ∧ s.gen ≤ u.gen ∧ s.promised ≤ u.promised := by
  cases st with
  | run t ht e =>
    simp only [run] at e
    split at e <;> (try split at e) <;> (try split at e) <;>
      first | (cases e; simp only [Sys.go]; refine ⟨?_, ?_, ?_⟩ <;> omega) | simp at e
  | _ => exact ⟨Nat.le_refl _, Nat.le_refl _, Nat.le_refl _⟩

section
variable {N : Nat} {x : Exec (AStep N)}

theorem run_reach (h0 : Reach N (x.st 0)) (k : Nat) : Reach N (x.st k) :=
  Exec.always (n := 0) (P := Reach N) h0 (fun k e _ hl h => h.step (x.ok k e hl).step) k (Nat.zero_le _)

theorem run_inv (h0 : Reach N (x.st 0)) (k : Nat) : Inv N (x.st k) := inv_reach (run_reach h0 k)

theorem grows1 (k : Nat) : (x.st k).woken ≤ (x.st (k + 1)).woken ∧ (x.st k).gen ≤ (x.st (k + 1)).gen ∧
    (x.st k).promised ≤ (x.st (k + 1)).promised := by
  cases hl : x.lab k with
  | none => rw [x.idle k hl]; exact ⟨Nat.le_refl _, Nat.le_refl _, Nat.le_refl _⟩
  | some e => exact grows (x.ok k e hl).step

theorem grows_many {n k : Nat} (h : n ≤ k) : (x.st n).woken ≤ (x.st k).woken ∧ (x.st n).gen ≤ (x.st k).gen ∧
    (x.st n).promised ≤ (x.st k).promised := by
  induction k with
  | zero => have : n = 0 := by omega
            subst this; exact ⟨Nat.le_refl _, Nat.le_refl _, Nat.le_refl _⟩
  | succ k ih =>
    rcases Nat.lt_or_ge k n with hk | hk
    · have : n = k + 1 := by omega
      subst this; exact ⟨Nat.le_refl _, Nat.le_refl _, Nat.le_refl _⟩
    · have h1 := ih hk
      have h2 := grows1 (x := x) k
      exact ⟨by omega, by omega, by omega⟩

/-- one time step for thread `t` -/
theorem move1 (k t : Nat) : (x.st (k + 1)).th t = (x.st k).th t ∨
    (x.lab k = some (.run t) ∧ run (x.st k) t = some (x.st (k + 1))) ∨ (x.st k).th t = .idle ∨ (x.st k).th t = .held := by
  cases hl : x.lab k with
  | none => left; rw [x.idle k hl]
  | some e =>
    rcases moves (x.ok k e hl) t with h | ⟨rfl, h⟩ | h | h
    · exact .inl h
    · exact .inr (.inl ⟨rfl, h⟩)
    · exact .inr (.inr (.inl h))
    · exact .inr (.inr (.inr h))

theorem label_run {k t : Nat} (h : x.lab k = some (.run t)) : run (x.st k) t = some (x.st (k + 1)) := by
  have := x.ok k _ h
  cases this with
  | run _ _ h => exact h

/-- a call that need not wait for others goes on -/
theorem goes_on (h0 : Reach N (x.st 0)) (hf : FairRun x) {n t : Nat} (h : free ((x.st n).th t) = true) :
    ∃ k, n ≤ k ∧ (x.st k).th t = (x.st n).th t ∧ run (x.st k) t = some (x.st (k + 1)) := by
  refine Classical.byContradiction fun hc => ?_
  have stay : ∀ k, n ≤ k → (x.st k).th t = (x.st n).th t := by
    refine Exec.always (P := fun s : Sys => s.th t = (x.st n).th t) rfl ?_
    intro k e hk hl hP
    rcases move1 (x := x) k t with h1 | ⟨_, h1⟩ | h1 | h1
    · rw [h1, hP]
    · exact absurd ⟨k, hk, hP, h1⟩ hc
    · rw [← hP, h1] at h; simp [free] at h
    · rw [← hP, h1] at h; simp [free] at h
  obtain ⟨k, hk, hl⟩ := (hf t).1.weak n (fun k hk => by
    obtain ⟨u, hu⟩ := free_run (s := x.st k) (t := t) (by rw [stay k hk]; exact h)
    exact ⟨u, .run t ((run_inv h0 k).lt t (fun e => by rw [← stay k hk, e] at h; simp [free] at h)) hu⟩)
  exact hc ⟨k, hk, stay k hk, label_run hl⟩

/-- a waiter carrying generation `g` -/
def At (g : Nat) (c : Pc) : Prop := c = .c1 g ∨ c = .c2 g ∨ c = .c3 g ∨ c = .c4 g

/-- **C63** (no wake-up gets lost): in every fair infinite execution as many waiters are woken as signals and broadcasts have
promised, whatever other threads do meanwhile. -/
theorem promises_kept (h0 : Reach N (x.st 0)) (hf : FairRun x) (n : Nat) :
    ∃ k, n ≤ k ∧ (x.st n).promised ≤ (x.st k).woken := by
  refine Classical.byContradiction fun hc => ?_
  have hless : ∀ k, n ≤ k → (x.st k).woken < (x.st n).promised := fun k hk =>
    Nat.lt_of_not_le fun h => hc ⟨k, hk, h⟩
  have hwake : ∀ k, n ≤ k → 0 < (x.st k).wake := by
    intro k hk
    have h1 := hless k hk
    have h2 := (run_inv h0 k).log
    have h3 := (grows_many (x := x) hk).2.2
    omega
  obtain ⟨p, hp, hset⟩ := Fair.settles (fun k => (x.st n).promised - (x.st k).woken) n (fun k hk => by
    have := (grows1 (x := x) k).1
    show _ - _ ≤ _ - _
    omega)
  have hconst : ∀ k, p ≤ k → (x.st k).woken = (x.st p).woken := by
    intro k hk
    have h1 := hset k hk
    have h2 := hless k (by omega)
    have h3 := hless p hp
    omega
  -- nobody is woken any more
  have nowake : ∀ k t g, p ≤ k → (x.st k).th t = .c3 g → run (x.st k) t = some (x.st (k + 1)) → (x.st k).gen = g := by
    intro k t g hk hth hr
    refine Classical.byContradiction fun hg => ?_
    have hw := hwake k (by omega)
    simp only [run, hth, ne_eq, Nat.ne_of_gt hw, not_false_eq_true, if_true, hg] at hr
    have := hconst k hk
    have := hconst (k + 1) (by omega)
    simp only [Option.some.injEq] at hr
    rw [← hr] at this
    simp only [Sys.go] at this
    omega
  -- a waiter that may be woken
  obtain ⟨t, ht, g, hAt, hg⟩ : ∃ t, t < N ∧ ∃ g, At g ((x.st p).th t) ∧ g < (x.st p).gen := by
    obtain ⟨t, ht, hpos⟩ := tot_pos (Nat.lt_of_lt_of_le (hwake p hp) (run_inv h0 p).elig)
    refine ⟨t, ht, ?_⟩
    cases e : (x.st p).th t <;> rw [e] at hpos <;> simp only [wE] at hpos <;> first | omega | skip
    all_goals
      rename_i g
      have : g < (x.st p).gen := by
        rcases Nat.lt_or_ge g (x.st p).gen with h | h
        · exact h
        · rw [if_neg (by omega)] at hpos; omega
      exact ⟨g, by simp [At], this⟩
  have hgen : ∀ k, p ≤ k → g < (x.st k).gen := fun k hk => Nat.lt_of_lt_of_le hg (grows_many (x := x) hk).2.1
  -- it never gets a token
  have noC3 : ∀ k, p ≤ k → (x.st k).th t ≠ .c3 g := by
    intro k hk e
    obtain ⟨j, hj, e1, e2⟩ := goes_on h0 hf (n := k) (t := t) (by rw [e]; rfl)
    have := nowake j t g (by omega) (by rw [e1, e]) e2
    have := hgen j (by omega)
    omega
  -- so it waits for the semaphore for ever
  have c2stay : ∀ q, p ≤ q → (x.st q).th t = .c2 g → ∀ k, q ≤ k → (x.st k).th t = .c2 g := by
    intro q hq e
    refine Exec.always (P := fun s : Sys => s.th t = .c2 g) e ?_
    intro k a hk hl hP
    rcases move1 (x := x) k t with h1 | ⟨_, h1⟩ | h1 | h1
    · rw [h1, hP]
    · exfalso
      simp only [run, hP] at h1
      split at h1
      · simp only [Option.some.injEq] at h1
        exact noC3 (k + 1) (by omega) (by rw [← h1]; simp [Sys.go])
      · simp at h1
    · rw [hP] at h1; simp at h1
    · rw [hP] at h1; simp at h1
  obtain ⟨q, hq, hc2⟩ : ∃ q, p ≤ q ∧ ∀ k, q ≤ k → (x.st k).th t = .c2 g := by
    rcases hAt with e | e | e | e
    · obtain ⟨k, hk, e1, e2⟩ := goes_on h0 hf (n := p) (t := t) (by rw [e]; rfl)
      refine ⟨k + 1, by omega, c2stay _ (by omega) ?_⟩
      rw [e] at e1
      simp only [run, e1, Option.some.injEq] at e2
      rw [← e2]; simp [Sys.go]
    · exact ⟨p, Nat.le_refl _, c2stay p (Nat.le_refl _) e⟩
    · exact absurd e (noC3 p (Nat.le_refl _))
    · obtain ⟨k, hk, e1, e2⟩ := goes_on h0 hf (n := p) (t := t) (by rw [e]; rfl)
      refine ⟨k + 1, by omega, c2stay _ (by omega) ?_⟩
      rw [e] at e1
      simp only [run, e1, Option.some.injEq] at e2
      rw [← e2]; simp [Sys.go]
  -- but there are tokens again and again
  have sem : ∀ m, ∃ k, m ≤ k ∧ (x.st k).sem ≠ 0 := by
    intro m
    refine Classical.byContradiction fun hn => ?_
    have hz : ∀ k, m ≤ k → (x.st k).sem = 0 := fun k hk =>
      Classical.byContradiction fun h => hn ⟨k, hk, h⟩
    have viaC4 : ∀ r u g', max m q ≤ r → (x.st r).th u = .c4 g' → False := by
      intro r u g' hr e
      obtain ⟨k, hk, e1, e2⟩ := goes_on h0 hf (n := r) (t := u) (by rw [e]; rfl)
      rw [e] at e1
      simp only [run, e1, Option.some.injEq] at e2
      have := hz (k + 1) (by omega)
      rw [← e2] at this
      simp [Sys.go] at this
    have i := run_inv h0 (max m q)
    have hw := hwake (max m q) (by omega)
    have hsem := hz (max m q) (by omega)
    have hT : 0 < tot N wT (x.st (max m q)).th := by have := i.wake; omega
    obtain ⟨u, hu, hpos⟩ := tot_pos hT
    cases e : (x.st (max m q)).th u <;> rw [e] at hpos <;> simp only [wT] at hpos <;> first | omega | skip
    · rename_i g'
      obtain ⟨k, hk, e1, e2⟩ := goes_on h0 hf (n := max m q) (t := u) (by rw [e]; rfl)
      rw [e] at e1
      have hg' := nowake k u g' (by omega) e1 e2
      have hw' := hwake k (by omega)
      simp only [run, e1, ne_eq, Nat.ne_of_gt hw', not_false_eq_true, if_true, hg', not_true, if_false,
        Option.some.injEq] at e2
      exact viaC4 (k + 1) u g' (by omega) (by rw [← e2]; simp [Sys.go])
    · rename_i g'
      exact viaC4 (max m q) u g' (Nat.le_refl _) e
    · rename_i c d
      obtain ⟨k, hk, e1, e2⟩ := goes_on h0 hf (n := max m q) (t := u) (by rw [e]; rfl)
      rw [e] at e1
      simp only [run, e1, Option.some.injEq] at e2
      have := hz (k + 1) (by omega)
      rw [← e2] at this
      simp only [Sys.go] at this
      omega
  obtain ⟨k, hk, hl⟩ := (hf t).1 (fun m => by
    obtain ⟨k, hk, hs⟩ := sem (max m q)
    obtain ⟨u, hu⟩ : ∃ u, run (x.st k) t = some u :=
      ⟨_, by simp only [run, hc2 k (by omega), ne_eq, hs, not_false_eq_true, if_true]; rfl⟩
    exact ⟨k, by omega, u, .run t ht hu⟩) q
  have hr := label_run hl
  simp only [run, hc2 k hk] at hr
  split at hr
  · simp only [Option.some.injEq] at hr
    exact noC3 (k + 1) (by omega) (by rw [← hr]; simp [Sys.go])
  · simp at hr

/-- the mutex changes hands only when it is unlocked -/
theorem owner_stays {a : Ev} {s u : Sys} (h : AStep N a s u) {o : Nat} (ho : s.um = some o) (hu : u.um ≠ none) :
    u.um = some o := by
  cases h with
  | run t ht e =>
    simp only [run] at e
    split at e <;> (try split at e) <;> (try split at e) <;>
      first
      | (cases e; simp_all [Sys.go]; done)
      | (simp at e; done)
  | unlock t ht e => simp [Sys.go] at hu
  | _ => exact ho

/-- again and again nobody owns the user mutex -/
theorem mutex_free (h0 : Reach N (x.st 0)) (hf : FairRun x) (m : Nat) : ∃ k, m ≤ k ∧ (x.st k).um = none := by
  refine Classical.byContradiction fun hc => ?_
  have hne : ∀ k, m ≤ k → (x.st k).um ≠ none := fun k hk h => hc ⟨k, hk, h⟩
  obtain ⟨o, ho⟩ : ∃ o, (x.st m).um = some o := by
    cases e : (x.st m).um with
    | none => exact absurd e (hne m (Nat.le_refl _))
    | some o => exact ⟨o, rfl⟩
  have hown : ∀ k, m ≤ k → (x.st k).um = some o := by
    intro k hk
    induction k with
    | zero => have : m = 0 := by omega
              subst this; exact ho
    | succ k ih =>
      rcases Nat.lt_or_ge k m with h | h
      · have : m = k + 1 := by omega
        subst this; exact ho
      · cases hl : x.lab k with
        | none => rw [x.idle k hl]; exact ih h
        | some e => exact owner_stays (x.ok k e hl) (ih h) (hne (k + 1) hk)
  have hth : ∀ k, m ≤ k → Owns ((x.st k).th o) := fun k hk => ((run_inv h0 k).own o).2 (hown k hk)
  have noC1 : ∀ k g, m ≤ k → (x.st k).th o ≠ .c1 g := by
    intro k g hk e
    obtain ⟨j, hj, e1, e2⟩ := goes_on h0 hf (n := k) (t := o) (by rw [e]; rfl)
    rw [e] at e1
    simp only [run, e1, Option.some.injEq] at e2
    exact hne (j + 1) (by omega) (by rw [← e2]; rfl)
  have noC0 : ∀ k, m ≤ k → (x.st k).th o ≠ .c0 := by
    intro k hk e
    obtain ⟨j, hj, e1, e2⟩ := goes_on h0 hf (n := k) (t := o) (by rw [e]; rfl)
    rw [e] at e1
    simp only [run, e1, Option.some.injEq] at e2
    exact noC1 (j + 1) (x.st j).gen (by omega) (by rw [← e2]; simp [Sys.go])
  have viaPost : ∀ k c, m ≤ k → (x.st k).th o = .post c true → ∃ j, k ≤ j ∧ (x.st j).th o = .held := by
    intro k c hk e
    obtain ⟨j, hj, e1, e2⟩ := goes_on h0 hf (n := k) (t := o) (by rw [e]; rfl)
    rw [e] at e1
    simp only [run, e1, Option.some.injEq] at e2
    exact ⟨j + 1, by omega, by rw [← e2]; simp [Sys.go, back]⟩
  have viaSig : ∀ k b, m ≤ k → (x.st k).th o = .sig b true → ∃ j, k ≤ j ∧ (x.st j).th o = .held := by
    intro k b hk e
    obtain ⟨j, hj, e1, e2⟩ := goes_on h0 hf (n := k) (t := o) (by rw [e]; rfl)
    rw [e] at e1
    have : ∃ c, (x.st (j + 1)).th o = .post c true := by
      cases b <;> simp only [run, e1] at e2 <;> split at e2 <;> simp only [Option.some.injEq] at e2 <;>
        exact ⟨_, by rw [← e2]; simp [Sys.go]; rfl⟩
    obtain ⟨c, hc⟩ := this
    obtain ⟨j', h1, h2⟩ := viaPost (j + 1) c (by omega) hc
    exact ⟨j', by omega, h2⟩
  have held : ∀ r, ∃ k, r ≤ k ∧ m ≤ k ∧ (x.st k).th o = .held := by
    intro r
    have h1 := hth (max m r) (by omega)
    have h2 := noC0 (max m r) (by omega)
    have h3 := fun g => noC1 (max m r) g (by omega)
    cases e : (x.st (max m r)).th o with
    | idle => rw [e] at h1; exact h1.elim
    | want => rw [e] at h1; exact h1.elim
    | held => exact ⟨_, by omega, by omega, e⟩
    | c0 => exact absurd e h2
    | c1 g => exact absurd e (h3 g)
    | c2 g => rw [e] at h1; exact h1.elim
    | c3 g => rw [e] at h1; exact h1.elim
    | c4 g => rw [e] at h1; exact h1.elim
    | c5 => rw [e] at h1; exact h1.elim
    | sig b d =>
      cases d with
      | false => rw [e] at h1; exact h1.elim
      | true =>
        obtain ⟨j, hj, h⟩ := viaSig _ b (by omega) e
        exact ⟨j, by omega, by omega, h⟩
    | post c d =>
      cases d with
      | false => rw [e] at h1; exact h1.elim
      | true =>
        obtain ⟨j, hj, h⟩ := viaPost _ c (by omega) e
        exact ⟨j, by omega, by omega, h⟩
  obtain ⟨k, hk, hl⟩ := (hf o).2 (fun r => by
    obtain ⟨k, h1, _, h3⟩ := held r
    exact ⟨k, h1, _, .unlock o ((run_inv h0 k).lt o (by rw [h3]; simp)) h3⟩) m
  have hst := x.ok k _ hl
  have h1 := hne (k + 1) (by omega)
  generalize x.st (k + 1) = u at hst h1
  cases hst with
  | unlock _ _ _ => exact h1 rfl

/-- **C63** (a woken thread returns): in every fair infinite execution a thread that waits for the user mutex - at the end of
`pthread_cond_wait` or in `pthread_mutex_lock` - gets it. -/
theorem woken_returns (h0 : Reach N (x.st 0)) (hf : FairRun x) {n t : Nat}
    (h : (x.st n).th t = .c5 ∨ (x.st n).th t = .want) : ∃ k, n ≤ k ∧ (x.st k).th t = .held ∧ Holds (x.st k) t := by
  refine Classical.byContradiction fun hc => ?_
  have nh : ∀ k, n ≤ k → (x.st k).th t ≠ .held := fun k hk e =>
    hc ⟨k, hk, e, returns_locked (run_reach h0 k) e⟩
  have stay : ∀ k, n ≤ k → (x.st k).th t = .c5 ∨ (x.st k).th t = .want := by
    refine Exec.always (P := fun s : Sys => s.th t = .c5 ∨ s.th t = .want) h ?_
    intro k a hk hl hP
    have hn := nh (k + 1) (by omega)
    rcases move1 (x := x) k t with h1 | ⟨_, h1⟩ | h1 | h1
    · rw [h1]; exact hP
    · exfalso
      rcases hP with e | e <;> simp only [run, e] at h1 <;> split at h1 <;>
        first | (simp only [Option.some.injEq] at h1; exact hn (by rw [← h1]; simp [Sys.go])) | simp at h1
    · rw [h1] at hP; simp at hP
    · rw [h1] at hP; simp at hP
  obtain ⟨k, hk, hl⟩ := (hf t).1 (fun m => by
    obtain ⟨k, hk, hu⟩ := mutex_free h0 hf (max m n)
    obtain ⟨u, hu⟩ : ∃ u, run (x.st k) t = some u := by
      rcases stay k (by omega) with e | e <;> exact ⟨_, by simp only [run, e, hu, if_true]; rfl⟩
    exact ⟨k, by omega, u, .run t ((run_inv h0 k).lt t (fun e => by
      have := stay k (by omega); rw [e] at this; simp at this)) hu⟩) n
  have h1 := label_run hl
  have hn := nh (k + 1) (by omega)
  rcases stay k hk with e | e <;> simp only [run, e] at h1 <;> split at h1 <;>
    first | (simp only [Option.some.injEq] at h1; exact hn (by rw [← h1]; simp [Sys.go])) | simp at h1

/-- while everybody who waits has been promised a wake-up, nothing more is promised -/
theorem promised_stays {s u : Sys} (st : Step N s u) (hw : s.wake = s.waiting) : u.promised = s.promised := by
  cases st with
  | run t ht e =>
    simp only [run] at e
    split at e <;> (try split at e) <;> (try split at e) <;>
      first | (cases e; rfl) | (simp at e; done) | omega
  | _ => rfl

/-- **C63** (a broadcast makes everybody return): in every fair infinite execution in which nobody begins to wait any more
after a broadcast, every thread that waits at the broadcast returns from `pthread_cond_wait`, with the mutex. -/
theorem broadcast_all_return (h0 : Reach N (x.st 0)) (hf : FairRun x) {n t : Nat} {b : Bool}
    (ht : (x.st n).th t = .sig true b) (hr : run (x.st n) t = some (x.st (n + 1)))
    (hq : ∀ k, n < k → ∀ u, (x.st k).th u ≠ .c0) {u g : Nat} (hu : At g ((x.st n).th u)) :
    ∃ k, n < k ∧ (x.st k).th u = .held ∧ Holds (x.st k) u := by
  obtain ⟨s', e', hw, _⟩ := broadcast_promises (run_reach h0 n) ht
  rw [hr] at e'
  obtain rfl := Option.some.inj e'
  have both : ∀ k, n + 1 ≤ k → (x.st k).wake = (x.st k).waiting ∧ (x.st k).promised = (x.st (n + 1)).promised := by
    refine Exec.always (P := fun s : Sys => s.wake = s.waiting ∧ s.promised = (x.st (n + 1)).promised) ⟨hw, rfl⟩ ?_
    intro k a hk hl hP
    exact ⟨keeps_all (x.ok k a hl).step (fun v hv => absurd hv (hq k (by omega) v)) hP.1,
      by rw [promised_stays (x.ok k a hl).step hP.1, hP.2]⟩
  obtain ⟨k, hk, hle⟩ := promises_kept h0 hf (n + 1)
  have i := run_inv h0 k
  have h1 := (both k hk).1
  have h2 := (both k hk).2
  have h3 := i.log
  have hz : tot N wW (x.st k).th = 0 := by rw [← i.waiting]; omega
  have ge : ∀ j, n ≤ j → At g ((x.st j).th u) ∨ ∃ l, n ≤ l ∧ l ≤ j ∧ (x.st l).th u = .c5 := by
    intro j hj
    induction j with
    | zero => have : n = 0 := by omega
              subst this; exact .inl hu
    | succ j ih =>
      rcases Nat.lt_or_ge j n with h | h
      · have : n = j + 1 := by omega
        subst this; exact .inl hu
      · rcases ih h with hA | ⟨l, h1, h2, h3⟩
        · rcases move1 (x := x) j u with e | ⟨_, e⟩ | e | e
          · left; rw [e]; exact hA
          · rcases hA with e1 | e1 | e1 | e1 <;> simp only [run, e1] at e
            · simp only [Option.some.injEq] at e
              left; rw [← e]; simp [Sys.go, At]
            · split at e
              · simp only [Option.some.injEq] at e
                left; rw [← e]; simp [Sys.go, At]
              · simp at e
            · split at e
              · split at e
                · simp only [Option.some.injEq] at e
                  right; exact ⟨j + 1, by omega, Nat.le_refl _, by rw [← e]; simp [Sys.go]⟩
                · simp only [Option.some.injEq] at e
                  left; rw [← e]; simp [Sys.go, At]
              · simp only [Option.some.injEq] at e
                left; rw [← e]; simp [Sys.go, At]
            · simp only [Option.some.injEq] at e
              left; rw [← e]; simp [Sys.go, At]
          · rw [e] at hA; simp [At] at hA
          · rw [e] at hA; simp [At] at hA
        · exact .inr ⟨l, h1, by omega, h3⟩
  rcases ge k (by omega) with hA | ⟨l, hl1, _, hl⟩
  · exfalso
    have hlt : u < N := i.lt u (by rcases hA with e | e | e | e <;> rw [e] <;> simp)
    have := tot_eq_zero.1 hz u hlt
    rcases hA with e | e | e | e <;> rw [e] at this <;> simp [wW] at this
  · obtain ⟨j, hj, r1, r2⟩ := woken_returns h0 hf (n := l) (t := u) (.inl hl)
    refine ⟨j, ?_, r1, r2⟩
    rcases Nat.lt_or_ge n j with h | h
    · exact h
    · exfalso
      have : j = n := by omega
      subst this
      rw [r1] at hu; simp [At] at hu

end

/-! ## A concrete fair execution: two waiters, a broadcast, both return -/

/-- the steps as a function -/
def perform (N : Nat) : Ev → Sys → Option Sys
  | .run t, s => if t < N then run s t else none
  | .lock t, s => if t < N ∧ s.th t = .idle then some (s.go t .want) else none
  | .unlock t, s => if t < N ∧ s.th t = .held then some ({ s with um := none }.go t .idle) else none
  | .wait t, s => if t < N ∧ s.th t = .held then some (s.go t .c0) else none
  | .notify t all, s => if t < N ∧ s.th t = .idle then some (s.go t (.sig all false)) else none

theorem perform_sound {N : Nat} (a : Ev) (s u : Sys) (h : perform N a s = some u) : AStep N a s u := by
  cases a with
  | run t =>
    simp only [perform] at h
    split at h
    · next ht => exact .run t ht h
    · simp at h
  | lock t =>
    simp only [perform] at h
    split at h
    · next ht => obtain rfl := Option.some.inj h; exact .lock t ht.1 ht.2
    · simp at h
  | unlock t =>
    simp only [perform] at h
    split at h
    · next ht => obtain rfl := Option.some.inj h; exact .unlock t ht.1 ht.2
    · simp at h
  | wait t =>
    simp only [perform] at h
    split at h
    · next ht => obtain rfl := Option.some.inj h; exact .wait t ht.1 ht.2
    · simp at h
  | notify t all =>
    simp only [perform] at h
    split at h
    · next ht => obtain rfl := Option.some.inj h; exact .notifyIdle t all ht.1 ht.2
    · simp at h

def demo : List Ev := blockEv 0 ++ blockEv 1 ++ [.notify 2 true, .run 2, .run 2] ++ wokenEv 1 ++ wokenEv 0

/-- non-vacuity: after eleven steps threads 0 and 1 wait and thread 2 is about to broadcast; nobody waits anew -/
example : ∃ x : Exec (AStep 3), Reach 3 (x.st 0) ∧ FairRun x ∧ (x.st 11).th 2 = .sig true false ∧
    run (x.st 11) 2 = some (x.st 12) ∧ At 0 ((x.st 11).th 0) ∧ At 0 ((x.st 11).th 1) ∧
    ∀ k, 11 < k → ∀ t, (x.st k).th t ≠ .c0 := by
  obtain ⟨u, hu, hidle⟩ : ∃ u, Fair.runs (perform 3) demo Sys.init = some u ∧ ∀ t, u.th t = .idle := by
    refine ⟨_, rfl, fun t => ?_⟩
    simp only [Sys.go, Sys.init, upd]
    by_cases h2 : t = 2 <;> by_cases h1 : t = 1 <;> by_cases h0 : t = 0 <;> simp [h0, h1, h2, back]
  obtain ⟨x, h0, hend, hl, hst, hfair⟩ := Fair.exists_finite (step := AStep 3) id (perform 3) perform_sound hu
  refine ⟨x, by rw [h0]; exact .init, fun t => ⟨hfair _ fun v hv => ?_, hfair _ fun v hv => ?_⟩, by rw [hst]; rfl, ?_,
    by rw [hst]; exact .inr (.inl rfl), by rw [hst]; exact .inr (.inl rfl), fun k hk t => ?_⟩
  · cases hv with
    | run _ _ h => simp [run, hidle] at h
  · cases hv with
    | unlock _ _ h => rw [hidle] at h; simp at h
  · exact label_run (by rw [hl]; rfl)
  · rcases Nat.lt_or_ge k demo.length with h | h
    · have : k = 12 ∨ k = 13 ∨ k = 14 ∨ k = 15 ∨ k = 16 ∨ k = 17 ∨ k = 18 ∨ k = 19 ∨ k = 20 := by
        have : demo.length = 21 := rfl
        omega
      intro ht
      have h3 : t = 0 ∨ t = 1 ∨ t = 2 := by
        have := (run_inv (x := x) (by rw [h0]; exact .init) k).lt t (by rw [ht]; simp)
        omega
      revert ht
      rw [hst]
      rcases h3 with rfl | rfl | rfl <;> rcases this with e | e | e | e | e | e | e | e | e <;> subst e <;> decide
    · rw [hend k h, hidle]; simp

end Verif.Cond
