import Verif.WinSem.Threads
import Verif.Common.Fair
/-!
# C69: `sem_wait` returns, in every fair infinite execution

The steps of `Model.lean` with their names.  Fairness: a call that can go on again and again goes on (strong fairness: the wait
for a semaphore succeeds only in moments in which its count is positive, and other threads may take the token).  New calls may
come all the time.
-/
namespace Verif.WinSem
open Verif.Tot
open Verif.Fair (Exec Enabled)

/-- what happens in a step -/
inductive Lab where
  | run (t : Nat)
  | call (t : Nat) (c : Pc)
  | timeout (t : Nat)
  deriving DecidableEq, Repr

/-- the steps of `Step max N`, labelled -/
inductive AStep (max N : Nat) : Lab → Sys → Sys → Prop where
  | run {s s' : Sys} (t : Nat) (ht : t < N) (h : run max s t = some s') : AStep max N (.run t) s s'
  | call {s : Sys} (t : Nat) (c : Pc) (ht : t < N) (h : (s.th t).free = true) (hc : c.start = true) :
      AStep max N (.call t c) s (s.go t c)
  | timeout {s : Sys} (t : Nat) (ht : t < N) (h : s.th t = .timed) (h0 : s.cnt = 0) :
      AStep max N (.timeout t) s (s.go t (.ret .etimedout))

theorem step_iff {max N : Nat} {s s' : Sys} : Step max N s s' ↔ ∃ a, AStep max N a s s' := by
  constructor
  · intro h
    cases h with
    | run t ht h => exact ⟨_, .run t ht h⟩
    | call t c ht h hc => exact ⟨_, .call t c ht h hc⟩
    | timeout t ht h h0 => exact ⟨_, .timeout t ht h h0⟩
  · rintro ⟨a, h⟩
    cases h with
    | run t ht h => exact .run t ht h
    | call t c ht h hc => exact .call t c ht h hc
    | timeout t ht h h0 => exact .timeout t ht h h0

/-- every call that can go on again and again goes on -/
def FairRun {max N : Nat} (x : Exec (AStep max N)) : Prop := ∀ t, x.Strong (.run t)

theorem run_others {max : Nat} {s u : Sys} {t k : Nat} (h : run max s t = some u) (hk : k ≠ t) : u.th k = s.th k := by
  unfold run at h
  split at h
  · simp at h
  · simp at h
  all_goals try split at h
  all_goals first | (cases h; exact upd_other _ _ hk) | simp at h

/-- only threads below `N` are ever in a call -/
theorem lt_of_busy {max N n : Nat} {s : Sys} (h : Reach max N n s) {t : Nat} (ht : s.th t ≠ .idle) : t < N := by
  induction h with
  | init => exact absurd rfl ht
  | step _ hs ih =>
    cases hs with
    | run k hk e =>
      by_cases he : t = k
      · subst he; exact hk
      · exact ih (by rwa [run_others e he] at ht)
    | call k c hk _ _ =>
      by_cases he : t = k
      · subst he; exact hk
      · exact ih (by simpa [Sys.go, upd_other _ _ he] using ht)
    | timeout k hk _ _ =>
      by_cases he : t = k
      · subst he; exact hk
      · exact ih (by simpa [Sys.go, upd_other _ _ he] using ht)

section
variable {max N n : Nat} {x : Exec (AStep max N)}

theorem run_reach (h0 : Reach max N n (x.st 0)) (k : Nat) : Reach max N n (x.st k) := by
  induction k with
  | zero => exact h0
  | succ k ih =>
    cases hl : x.lab k with
    | none => rw [x.idle k hl]; exact ih
    | some a => exact .step ih (step_iff.2 ⟨a, x.ok k a hl⟩)

theorem label_run {k t : Nat} (h : x.lab k = some (.run t)) : run max (x.st k) t = some (x.st (k + 1)) := by
  have := x.ok k _ h
  generalize x.st (k + 1) = u at this
  cases this with
  | run _ _ e => exact e

/-- a thread in a call stays where it is until it runs or (in `sem_timedwait`) times out -/
theorem move1 (k t : Nat) (h : (x.st k).th t ≠ .timed) (hb : ((x.st k).th t).free = false) :
    (x.st (k + 1)).th t = (x.st k).th t ∨ x.lab k = some (.run t) := by
  cases hl : x.lab k with
  | none => left; rw [x.idle k hl]
  | some a =>
    have hs := x.ok k a hl
    generalize x.st (k + 1) = u at hs
    cases hs with
    | run j hj e =>
      by_cases he : t = j
      · subst he; exact .inr rfl
      · exact .inl (run_others e he)
    | call j c hj hfr hc =>
      by_cases he : t = j
      · subst he; rw [hfr] at hb; cases hb
      · exact .inl (upd_other _ _ he)
    | timeout j hj e e0 =>
      by_cases he : t = j
      · subst he; exact absurd e h
      · exact .inl (upd_other _ _ he)

/-- the calls that never have to wait -/
def quick : Pc → Bool
  | .try_ | .post | .gv0 | .gv1 => true
  | _ => false

theorem quick_run {s : Sys} {t : Nat} (h : quick (s.th t) = true) : ∃ u, run max s t = some u := by
  unfold run
  split <;> rename_i hp <;> rw [hp] at h <;> simp only [quick] at h <;> first | cases h | skip
  all_goals split <;> exact ⟨_, rfl⟩

/-- such a call goes on, from where it is -/
theorem goes_on (h0 : Reach max N n (x.st 0)) (hf : FairRun x) {m t : Nat} (h : quick ((x.st m).th t) = true) :
    ∃ k, m ≤ k ∧ (x.st k).th t = (x.st m).th t ∧ run max (x.st k) t = some (x.st (k + 1)) := by
  refine Classical.byContradiction fun hc => ?_
  have hq : ∀ {c : Pc}, quick c = true → c ≠ .timed ∧ c.free = false ∧ c ≠ .idle := by
    intro c; cases c <;> simp [quick, Pc.free]
  have stay : ∀ k, m ≤ k → (x.st k).th t = (x.st m).th t := by
    refine Exec.always (P := fun s : Sys => s.th t = (x.st m).th t) rfl ?_
    intro k a hk hl hP
    rcases move1 (x := x) k t (by rw [hP]; exact (hq h).1) (by rw [hP]; exact (hq h).2.1) with e | e
    · rw [e, hP]
    · exact absurd ⟨k, hk, hP, label_run e⟩ hc
  obtain ⟨k, hk, hl⟩ := hf t (fun j => by
    obtain ⟨u, hu⟩ := quick_run (max := max) (s := x.st (Nat.max m j)) (t := t) (by rw [stay _ (Nat.le_max_left ..)]; exact h)
    exact ⟨Nat.max m j, Nat.le_max_right .., u, .run t (lt_of_busy (run_reach h0 (Nat.max m j)) (by
      rw [stay _ (Nat.le_max_left ..)]; exact (hq h).2.2)) hu⟩) m
  exact hc ⟨k, hk, stay k hk, label_run hl⟩

/-- **C69** (calls that do not wait): in every fair infinite execution `sem_trywait`, `sem_post` and `sem_getvalue` return. -/
theorem quick_returns (h0 : Reach max N n (x.st 0)) (hf : FairRun x) {m t : Nat}
    (h : (x.st m).th t = .try_ ∨ (x.st m).th t = .post ∨ (x.st m).th t = .gv0 ∨ (x.st m).th t = .gv1) :
    ∃ k r, m ≤ k ∧ (x.st k).th t = .ret r := by
  have gv1 : ∀ m, (x.st m).th t = .gv1 → ∃ k r, m ≤ k ∧ (x.st k).th t = .ret r := by
    intro m h
    obtain ⟨k, hk, e1, e2⟩ := goes_on h0 hf (m := m) (t := t) (by rw [h]; rfl)
    rw [h] at e1
    simp only [run, e1] at e2
    split at e2 <;> simp only [Option.some.injEq] at e2 <;>
      exact ⟨k + 1, _, by omega, by rw [← e2]; simp only [Sys.go, upd_self]; rfl⟩
  rcases h with h | h | h | h
  · obtain ⟨k, hk, e1, e2⟩ := goes_on h0 hf (m := m) (t := t) (by rw [h]; rfl)
    rw [h] at e1
    simp only [run, e1] at e2
    split at e2 <;> simp only [Option.some.injEq] at e2 <;>
      exact ⟨k + 1, _, by omega, by rw [← e2]; simp only [Sys.go, upd_self]; rfl⟩
  · obtain ⟨k, hk, e1, e2⟩ := goes_on h0 hf (m := m) (t := t) (by rw [h]; rfl)
    rw [h] at e1
    simp only [run, e1] at e2
    split at e2 <;> simp only [Option.some.injEq] at e2 <;>
      exact ⟨k + 1, _, by omega, by rw [← e2]; simp only [Sys.go, upd_self]; rfl⟩
  · obtain ⟨k, hk, e1, e2⟩ := goes_on h0 hf (m := m) (t := t) (by rw [h]; rfl)
    rw [h] at e1
    simp only [run, e1] at e2
    split at e2 <;> simp only [Option.some.injEq] at e2
    · obtain ⟨j, r, hj, e⟩ := gv1 (k + 1) (by rw [← e2]; simp [Sys.go])
      exact ⟨j, r, by omega, e⟩
    · exact ⟨k + 1, _, by omega, by rw [← e2]; simp only [Sys.go, upd_self]; rfl⟩
  · exact gv1 m h

/-- a thread in `sem_wait` stays there or returns `0` -/
theorem stays_or_returns {m t : Nat} (h : (x.st m).th t = .wait) :
    (∃ k, m < k ∧ (x.st k).th t = .ret .ok) ∨ ∀ k, m ≤ k → (x.st k).th t = .wait := by
  by_cases hc : ∃ k, m < k ∧ (x.st k).th t = .ret .ok
  · exact .inl hc
  · refine .inr (Exec.always (P := fun s : Sys => s.th t = .wait) h ?_)
    intro k a hk hl hP
    rcases move1 (x := x) k t (by rw [hP]; simp) (by rw [hP]; rfl) with e | e
    · rw [e, hP]
    · exfalso
      have e2 := label_run e
      simp only [run, hP] at e2
      split at e2
      · simp only [Option.some.injEq] at e2
        exact hc ⟨k + 1, by omega, by rw [← e2]; simp [Sys.go]⟩
      · simp at e2

/-- while a thread stays in `sem_wait`, from some time on the count is 0 -/
theorem stuck_zero (h0 : Reach max N n (x.st 0)) (hf : FairRun x) {m t : Nat} (h : ∀ k, m ≤ k → (x.st k).th t = .wait) :
    ∃ q, m ≤ q ∧ ∀ k, q ≤ k → (x.st k).cnt = 0 := by
  refine Classical.byContradiction fun hc => ?_
  obtain ⟨k, hk, hl⟩ := hf t (fun j => by
    refine Classical.byContradiction fun hn => ?_
    refine hc ⟨Nat.max m j, Nat.le_max_left .., fun k hk => ?_⟩
    refine Classical.byContradiction fun hz => ?_
    have h1 : m ≤ k := Nat.le_trans (Nat.le_max_left ..) hk
    have h2 : j ≤ k := Nat.le_trans (Nat.le_max_right ..) hk
    obtain ⟨u, hu⟩ : ∃ u, run max (x.st k) t = some u :=
      ⟨_, by simp only [run, h k h1, ne_eq, hz, not_false_eq_true, if_true]; rfl⟩
    exact hn ⟨k, h2, u, .run t (lt_of_busy (run_reach h0 k) (by rw [h k h1]; simp)) hu⟩) m
  have e2 := label_run hl
  simp only [run, h k hk] at e2
  split at e2
  · simp only [Option.some.injEq] at e2
    have := h (k + 1) (by omega)
    rw [← e2] at this
    simp [Sys.go] at this
  · simp at e2

/-- **C69** (liveness): in every fair infinite execution a thread that stays in `sem_wait` for ever does so because there is
nothing to take: from some time on the count is 0, nobody holds a token in the middle of `sem_getvalue`, and the successful
waits (and the tokens `sem_getvalue` lost) are as many as the initial value and all successful posts. -/
theorem stuck_only_if_all_taken (h0 : Reach max N n (x.st 0)) (hn : n ≤ max) (hm : 0 < max) (hf : FairRun x) {m t : Nat}
    (h : ∀ k, m ≤ k → (x.st k).th t = .wait) :
    ∃ q, m ≤ q ∧ ∀ k, q ≤ k → (x.st k).cnt = 0 ∧ (x.st k).takes + (x.st k).lost = n + (x.st k).posts := by
  obtain ⟨q, hq, hz⟩ := stuck_zero h0 hf h
  refine ⟨q, hq, fun k hk => ⟨hz k hk, ?_⟩⟩
  have hp : peeking N (x.st k) = 0 := by
    refine Classical.byContradiction fun hne => ?_
    obtain ⟨j, hj, h1⟩ := tot_pos (N := N) (w := peek) (f := (x.st k).th) (by unfold peeking at hne; omega)
    have hg : (x.st k).th j = .gv1 := by
      revert h1
      cases (x.st k).th j <;> simp [peek]
    obtain ⟨l, hl, e1, e2⟩ := goes_on h0 hf (m := k) (t := j) (by rw [hg]; rfl)
    rw [hg] at e1
    have hzl := hz l (by omega)
    simp only [run, e1, hzl, hm, if_true, Option.some.injEq] at e2
    have := hz (l + 1) (by omega)
    rw [← e2] at this
    simp [Sys.go] at this
  have := (reach_inv hn (run_reach h0 k)).sum
  have := hz k hk
  omega

/-- **C69** (liveness): if again and again there is a token that nobody has taken, every `sem_wait` returns `0`. -/
theorem wait_returns (h0 : Reach max N n (x.st 0)) (hn : n ≤ max) (hm : 0 < max) (hf : FairRun x) {m t : Nat}
    (h : (x.st m).th t = .wait)
    (ht : ∀ q, ∃ k, q ≤ k ∧ (x.st k).takes + (x.st k).lost < n + (x.st k).posts) :
    ∃ k, m < k ∧ (x.st k).th t = .ret .ok := by
  rcases stays_or_returns (x := x) h with h1 | h1
  · exact h1
  · obtain ⟨q, _, hq⟩ := stuck_only_if_all_taken h0 hn hm hf h1
    obtain ⟨k, hk, hlt⟩ := ht q
    have := (hq k hk).2
    omega

/-- **C69** (liveness): if again and again some `sem_post` succeeds, every `sem_wait` returns `0` - however many other threads
wait and take tokens. -/
theorem wait_returns_posts (h0 : Reach max N n (x.st 0)) (hf : FairRun x) {m t : Nat}
    (h : (x.st m).th t = .wait) (hp : ∀ q, ∃ k, q ≤ k ∧ (x.st k).posts < (x.st (k + 1)).posts) :
    ∃ k, m < k ∧ (x.st k).th t = .ret .ok := by
  rcases stays_or_returns (x := x) h with h1 | h1
  · exact h1
  · exfalso
    obtain ⟨q, _, hq⟩ := stuck_zero h0 hf h1
    obtain ⟨k, hk, hlt⟩ := hp q
    have hz := hq (k + 1) (by omega)
    cases hl : x.lab k with
    | none => rw [x.idle k hl] at hlt; omega
    | some a =>
      have hs := x.ok k a hl
      generalize x.st (k + 1) = u at hs hlt hz
      cases hs with
      | run j hj e =>
        unfold run at e
        split at e
        · simp at e
        · simp at e
        all_goals try split at e
        all_goals first | (cases e; simp only [Sys.go] at hlt hz; omega) | simp at e
      | call => simp [Sys.go] at hlt
      | timeout => simp [Sys.go] at hlt

end

/-! ## Concrete fair executions -/

/-- the steps as a function -/
def perform (max N : Nat) : Lab → Sys → Option Sys
  | .run t, s => if t < N then run max s t else none
  | .call t c, s => if t < N ∧ (s.th t).free = true ∧ c.start = true then some (s.go t c) else none
  | .timeout t, s => if t < N ∧ s.th t = .timed ∧ s.cnt = 0 then some (s.go t (.ret .etimedout)) else none

theorem perform_sound {max N : Nat} (a : Lab) (s u : Sys) (h : perform max N a s = some u) : AStep max N a s u := by
  cases a with
  | run t =>
    simp only [perform] at h
    split at h
    · next ht => exact .run t ht h
    · simp at h
  | call t c =>
    simp only [perform] at h
    split at h
    · next ht => obtain rfl := Option.some.inj h; exact .call t c ht.1 ht.2.1 ht.2.2
    · simp at h
  | timeout t =>
    simp only [perform] at h
    split at h
    · next ht => obtain rfl := Option.some.inj h; exact .timeout t ht.1 ht.2.1 ht.2.2
    · simp at h

/-- non-vacuity of `wait_returns`: thread 0 waits, thread 1 posts twice; one token is left at the end -/
example : ∃ x : Exec (AStep 5 2), Reach 5 2 0 (x.st 0) ∧ FairRun x ∧ (x.st 1).th 0 = .wait ∧
    ∀ q, ∃ k, q ≤ k ∧ (x.st k).takes + (x.st k).lost < 0 + (x.st k).posts := by
  obtain ⟨u, hu, hret, hlt⟩ : ∃ u, Fair.runs (perform 5 2)
      [.call 0 .wait, .call 1 .post, .run 1, .run 0, .call 1 .post, .run 1] (Sys.init 0) = some u ∧
      (∀ t, (u.th t).free = true) ∧ u.takes + u.lost < 0 + u.posts := by
    refine ⟨_, rfl, fun t => ?_, by decide⟩
    simp only [Sys.go, Sys.init, upd]
    by_cases h1 : t = 1 <;> by_cases h0 : t = 0 <;> simp [h0, h1, Pc.free]
  obtain ⟨x, h0, hend, hl, hst, hfair⟩ := Fair.exists_finite (step := AStep 5 2) id (perform 5 2) perform_sound hu
  refine ⟨x, by rw [h0]; exact .init, fun t => hfair _ fun v hv => ?_, by rw [hst]; rfl, fun q => ?_⟩
  · cases hv with
    | run _ _ h =>
      have := hret t
      unfold run at h
      split at h <;> rename_i hp <;> rw [hp] at this <;> first | (simp at h; done) | (simp [Pc.free] at this; done)
  · refine ⟨Nat.max q 6, Nat.le_max_left .., ?_⟩
    rw [hend (Nat.max q 6) (Nat.le_max_right q 6)]
    exact hlt

/-- the state of the infinite execution below, up to the counters -/
def cycleSt (k : Nat) : Sys :=
  ⟨if k % 4 = 3 then 1 else 0,
   fun t => if t = 0 then (if k = 0 then .idle else if k % 4 = 0 then .ret .ok else .wait)
     else if t = 1 then (if k % 4 = 2 then .post else if k < 3 then .idle else .ret .ok) else .idle,
   (k + 1) / 4, k / 4, 0⟩

def cycleLab (k : Nat) : Lab :=
  if k % 4 = 0 then .call 0 .wait else if k % 4 = 1 then .call 1 .post else if k % 4 = 2 then .run 1 else .run 0

theorem sys_ext {a b : Sys} (h1 : a.cnt = b.cnt) (h2 : ∀ t, a.th t = b.th t) (h3 : a.posts = b.posts)
    (h4 : a.takes = b.takes) (h5 : a.lost = b.lost) : a = b := by
  cases a; cases b
  simp only at *
  subst h1 h3 h4 h5
  congr 1
  exact funext h2

theorem cycle_ok (k : Nat) : AStep 5 2 (cycleLab k) (cycleSt k) (cycleSt (k + 1)) := by
  have h : k % 4 = 0 ∨ k % 4 = 1 ∨ k % 4 = 2 ∨ k % 4 = 3 := by omega
  have hs : perform 5 2 (cycleLab k) (cycleSt k) = some (cycleSt (k + 1)) := by
    rcases h with h | h | h | h
    · have e : (k + 1) % 4 = 1 := by omega
      have e1 : (k + 1 + 1) / 4 = (k + 1) / 4 := by omega
      have e2 : (k + 1) / 4 = k / 4 := by omega
      have e3 : ¬ k + 1 = 0 := by omega
      have e4 : (k + 1 < 3) = (k < 3) := by simp; omega
      rw [show cycleLab k = .call 0 .wait by simp [cycleLab, h]]
      simp only [perform]
      rw [if_pos ⟨by omega, by simp only [cycleSt, h, if_true]; split <;> rfl, rfl⟩]
      refine congrArg some (sys_ext ?_ ?_ ?_ ?_ rfl)
      · simp [cycleSt, Sys.go, h, e]
      · intro t
        simp only [cycleSt, Sys.go, upd, h, e, e3, e4]
        by_cases h0 : t = 0 <;> by_cases h1 : t = 1 <;> simp [h0, h1]
      · simp [cycleSt, Sys.go, e1]
      · simp [cycleSt, Sys.go, e2]
    · have e : (k + 1) % 4 = 2 := by omega
      have e1 : (k + 1 + 1) / 4 = (k + 1) / 4 := by omega
      have e2 : (k + 1) / 4 = k / 4 := by omega
      have e3 : ¬ k = 0 := by omega
      rw [show cycleLab k = .call 1 .post by simp [cycleLab, h]]
      simp only [perform]
      rw [if_pos ⟨by omega, by simp only [cycleSt, h]; by_cases hk : k < 3 <;> simp [hk, Pc.free], rfl⟩]
      refine congrArg some (sys_ext ?_ ?_ ?_ ?_ rfl)
      · simp [cycleSt, Sys.go, h, e]
      · intro t
        simp only [cycleSt, Sys.go, upd, h, e, e3]
        by_cases h0 : t = 0 <;> by_cases h1 : t = 1 <;> simp [h0, h1]
      · simp [cycleSt, Sys.go, e1]
      · simp [cycleSt, Sys.go, e2]
    · have e : (k + 1) % 4 = 3 := by omega
      have e1 : (k + 1 + 1) / 4 = (k + 1) / 4 + 1 := by omega
      have e2 : (k + 1) / 4 = k / 4 := by omega
      have e3 : ¬ k = 0 := by omega
      have e4 : ¬ k + 1 < 3 := by omega
      have hth : (cycleSt k).th 1 = .post := by simp [cycleSt, h]
      have hcnt : (cycleSt k).cnt = 0 := by simp [cycleSt, h]
      rw [show cycleLab k = .run 1 by simp [cycleLab, h]]
      simp only [perform, run, hth, hcnt]
      rw [if_pos (by omega), if_pos (by omega)]
      refine congrArg some (sys_ext ?_ ?_ ?_ ?_ rfl)
      · simp [cycleSt, Sys.go, e]
      · intro t
        simp only [cycleSt, Sys.go, upd, h, e, e3, e4]
        by_cases h0 : t = 0 <;> by_cases h1 : t = 1 <;> simp [h0, h1]
      · simp [cycleSt, Sys.go, e1]
      · simp [cycleSt, Sys.go, e2]
    · have e : (k + 1) % 4 = 0 := by omega
      have e1 : (k + 1 + 1) / 4 = (k + 1) / 4 := by omega
      have e2 : (k + 1) / 4 = k / 4 + 1 := by omega
      have e3 : ¬ k = 0 := by omega
      have e4 : ¬ k + 1 < 3 := by omega
      have e5 : ¬ k < 3 := by omega
      have hth : (cycleSt k).th 0 = .wait := by simp [cycleSt, h, e3]
      have hcnt : (cycleSt k).cnt = 1 := by simp [cycleSt, h]
      rw [show cycleLab k = .run 0 by simp [cycleLab, h]]
      simp only [perform, run, hth, hcnt]
      rw [if_pos (by omega), if_pos (by omega)]
      refine congrArg some (sys_ext ?_ ?_ ?_ ?_ rfl)
      · simp [cycleSt, Sys.go, e]
      · intro t
        simp only [cycleSt, Sys.go, upd, h, e, e3, e4, e5]
        by_cases h0 : t = 0 <;> by_cases h1 : t = 1 <;> simp [h0, h1]
      · simp [cycleSt, Sys.go, e1]
      · simp [cycleSt, Sys.go, e2]
  exact perform_sound _ _ _ hs

def cycle : Exec (AStep 5 2) where
  st := cycleSt
  lab k := some (cycleLab k)
  ok k e h := by cases h; exact cycle_ok k
  idle k h := by cases h

/-- non-vacuity of `wait_returns_posts`: a consumer and a producer that never stop -/
example : Reach 5 2 0 (cycle.st 0) ∧ FairRun cycle ∧ (cycle.st 1).th 0 = .wait ∧
    ∀ q, ∃ k, q ≤ k ∧ (cycle.st k).posts < (cycle.st (k + 1)).posts := by
  refine ⟨?_, fun t hen m => ?_, rfl, fun q => ⟨4 * q + 2, by omega, ?_⟩⟩
  · have : cycle.st 0 = Sys.init 0 := sys_ext rfl (fun t => by
      simp only [cycle, cycleSt, Sys.init]
      by_cases h0 : t = 0 <;> by_cases h1 : t = 1 <;> simp [h0, h1]) rfl rfl rfl
    rw [this]; exact .init
  · by_cases h0 : t = 0
    · subst h0
      exact ⟨4 * m + 3, by omega, by simp only [cycle, cycleLab]; rw [if_neg (by omega), if_neg (by omega), if_neg (by omega)]⟩
    · by_cases h1 : t = 1
      · subst h1
        exact ⟨4 * m + 2, by omega, by simp only [cycle, cycleLab]; rw [if_neg (by omega), if_neg (by omega), if_pos (by omega)]⟩
      · obtain ⟨k, _, u, hu⟩ := hen 0
        cases hu with
        | run _ _ h => simp [run, cycle, cycleSt, h0, h1] at h
  · simp only [cycle, cycleSt]; omega

end Verif.WinSem
