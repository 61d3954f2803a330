import Verif.WinMutex.Props
import Verif.Common.Fair
/-!
# C105: in every fair infinite execution every call of `pthread_mutex_lock` and `_unlock` returns

Fairness: a thread inside a call that can take its next step again and again takes it (strong fairness: the two waits of the code
end in moments in which the lock is free, and others may take it first); and no thread holds the mutex from some time on for ever.
New calls may come all the time, and `calloc` may fail whenever it likes.
-/
namespace Verif.WinMutex
open Verif.Fair (Exec Enabled)

inductive Ev where
  | lock (t : Nat) | unlock (t : Nat) | run (t : Nat)
  deriving DecidableEq

/-- the steps of `Step`, labelled -/
inductive AStep : Ev → Sys → Sys → Prop where
  | lock {s : Sys} (t : Nat) (h : s.th t = .idle) : AStep (.lock t) s (s.go t .lNull)
  | unlock {s : Sys} (t : Nat) (h : s.th t = .idle) (hh : 0 < s.held t) :
      AStep (.unlock t) s ({ s with held := fun k => if k = t then s.held t - 1 else s.held k }.go t .uNull)
  | run {s s' : Sys} (t : Nat) (mem : Bool) (h : may s t = true) (ha : act s t mem = some s') : AStep (.run t) s s'

theorem AStep.step {e s s'} (h : AStep e s s') : Step s (some s') := by
  cases h with
  | lock t h => exact .lock t h
  | unlock t h hh => exact .unlock t h hh
  | run t mem h ha => exact ha ▸ .run t mem h

theorem step_labelled {s s'} (h : Step s (some s')) : ∃ e, AStep e s s' := by
  generalize ho : some s' = o at h
  cases h with
  | lock t h => cases ho; exact ⟨_, .lock t h⟩
  | unlock t h hh => cases ho; exact ⟨_, .unlock t h hh⟩
  | run t mem h => exact ⟨_, .run t mem h ho.symm⟩

structure FairRun (x : Exec AStep) : Prop where
  run : ∀ t, x.Strong (.run t)
  letGo : ∀ t n, ∃ k, n ≤ k ∧ (x.st k).held t = 0

/-! ## What one step does -/

/-- what a step of `t` may change -/
theorem act_local {s s' : Sys} {t : Nat} {mem : Bool} (h : act s t mem = some s') :
    (∃ c, s'.th = fun k => if k = t then c else s.th k) ∧ ∀ j, j ≠ t → s'.held j = s.held j := by
  unfold act at h
  split at h <;> (try split at h) <;> (try split at h) <;> cases h <;>
    exact ⟨⟨_, rfl⟩, fun j hj => by simp [Sys.go, Sys.setObj, hj]⟩

def rank : Pc → Nat
  | .lNull => 9
  | .lCmp => 8
  | .lWant => 7
  | .lChk => 6
  | .lMake => 5
  | .lLeave _ => 4
  | .lLoad => 3
  | .lEnter _ => 2
  | .lRet _ => 1
  | .uNull => 5
  | .uCmp => 4
  | .uLoad => 3
  | .uLeave _ => 2
  | .uRet _ => 1
  | .idle => 0

theorem act_rank {s s' : Sys} {t : Nat} {mem : Bool} (h : act s t mem = some s') : rank (s'.th t) < rank (s.th t) := by
  cases hc : s.th t <;> simp only [act, hc] at h <;> (try split at h) <;> (try split at h) <;> cases h <;>
    simp only [Sys.go, if_true] <;> (try split) <;> simp [rank]

theorem other {e s s'} (h : AStep e s s') {t : Nat} (ht : s.th t ≠ .idle) (he : e ≠ .run t) :
    s'.th t = s.th t ∧ s'.held t = s.held t := by
  cases h with
  | lock u h =>
    have : t ≠ u := fun e => ht (e ▸ h)
    simp [Sys.go, this]
  | unlock u h hh =>
    have : t ≠ u := fun e => ht (e ▸ h)
    simp [Sys.go, this]
  | run u mem h ha =>
    have hu : t ≠ u := fun e => he (e ▸ rfl)
    obtain ⟨⟨c, hc⟩, hh⟩ := act_local ha
    exact ⟨by rw [hc]; simp [hu], hh t hu⟩

/-- the thread whose the critical section is -/
def owner (s : Sys) : Option Nat := (s.objs 0).bind (·.1)

theorem owner_step {k e s s'} (hi : Inv k s) (hm : Made s) (h : AStep e s s') {u : Nat} (ho : owner s = some u) :
    owner s' = some u ∨ owner s' = none := by
  obtain ⟨ow, n, hobj, _⟩ := hm.obj
  have how : ow = some u := by simpa [owner, hobj] using ho
  subst how
  cases h with
  | lock t h => exact .inl ho
  | unlock t h hh => exact .inl ho
  | run t mem h ha =>
    have hf := hi.fine t
    cases hc : s.th t with
    | lMake => exact absurd hc (hm.noMake t)
    | lEnter o =>
      rw [hc] at hf
      have ho' : o = 0 := hf
      subst ho'
      have hut : u = t := by simpa [may, hc, hobj] using h
      simp only [act, hc, hobj] at ha
      cases ha
      left; simp [owner, Sys.go, Sys.setObj, hut]
    | uLeave o =>
      rw [hc] at hf
      have ho' : o = 0 := hf
      subst ho'
      simp only [act, hc, hobj] at ha
      split at ha
      · rename_i hut
        cases ha
        by_cases hn : n = 1
        · right; simp [owner, Sys.go, Sys.setObj, hn]
        · left; simp [owner, Sys.go, Sys.setObj, hn, hut]
      · cases ha
    | _ =>
      left
      simp only [act, hc] at ha
      (try split at ha) <;> (try split at ha) <;> cases ha <;> exact ho

theorem made_stays {k e s s'} (hi : Inv k s) (hm : Made s) (h : AStep e s s') : Made s' := by
  obtain ⟨s2, h2, hi'⟩ := inv_step hi h.step
  cases h2
  rcases hi'.var with f | m
  · exfalso
    have hv := f.var
    revert hv
    cases h with
    | lock t h => simp [Sys.go, hm.var]
    | unlock t h hh => simp [Sys.go, hm.var]
    | run t mem h ha =>
      intro hv
      cases hc : s.th t <;> simp only [act, hc] at ha <;> (try split at ha) <;> (try split at ha) <;> cases ha <;>
        simp [Sys.go, Sys.setObj, hm.var] at hv
  · exact m

/-! ## Infinite executions -/

variable {x : Exec AStep} {m : Nat}

theorem inv_all (h0 : Reach m (x.st 0)) : ∀ k, Inv m (x.st k) := by
  intro k
  induction k with
  | zero => exact inv_reach h0
  | succ k ih =>
    cases hl : x.lab k with
    | none => rw [x.idle k hl]; exact ih
    | some e =>
      obtain ⟨s2, h2, hi⟩ := inv_step ih (x.ok k e hl).step
      cases h2; exact hi

/-- A thread inside a call stays where it is until its next step. -/
theorem stays {t n : Nat} (ht : (x.st n).th t ≠ .idle) : ∀ d, (∀ j, n ≤ j → j < n + d → x.lab j ≠ some (.run t)) →
    (x.st (n + d)).th t = (x.st n).th t ∧ (x.st (n + d)).held t = (x.st n).held t := by
  intro d
  induction d with
  | zero => intro _; exact ⟨rfl, rfl⟩
  | succ d ih =>
    intro h
    have ih := ih fun j h1 h2 => h j h1 (by omega)
    have hn := h (n + d) (by omega) (by omega)
    rw [← Nat.add_assoc]
    cases hl : x.lab (n + d) with
    | none => rw [x.idle _ hl]; exact ih
    | some e =>
      have := other (x.ok _ e hl) (t := t) (by rw [ih.1]; exact ht) (fun he => hn (he ▸ hl))
      rw [this.1, this.2]; exact ih

theorem enabled (h0 : Reach m (x.st 0)) {k t : Nat} (h : may (x.st k) t = true) : Enabled AStep (.run t) (x.st k) := by
  obtain ⟨s', ha, _⟩ := inv_act (inv_all h0 k) t true h
  exact ⟨s', .run t true h ha⟩

/-- The next step of a thread, given that it will come. -/
theorem next_step {t n : Nat} (ht : (x.st n).th t ≠ .idle) (h : ∃ k, n ≤ k ∧ x.lab k = some (.run t)) :
    ∃ k, n ≤ k ∧ (x.st k).th t = (x.st n).th t ∧ (x.st k).held t = (x.st n).held t ∧ may (x.st k) t = true ∧
      ∃ mem, act (x.st k) t mem = some (x.st (k + 1)) := by
  obtain ⟨k, hk, hl⟩ := h
  have key : ∀ d, (∃ j, n ≤ j ∧ j < n + d ∧ x.lab j = some (.run t)) →
      ∃ j, n ≤ j ∧ x.lab j = some (.run t) ∧ ∀ i, n ≤ i → i < j → x.lab i ≠ some (.run t) := by
    intro d
    induction d with
    | zero => rintro ⟨j, h1, h2, _⟩; omega
    | succ d ih =>
      intro hj
      by_cases he : ∃ j, n ≤ j ∧ j < n + d ∧ x.lab j = some (.run t)
      · exact ih he
      · obtain ⟨j, h1, h2, h3⟩ := hj
        exact ⟨j, h1, h3, fun i hi1 hi2 hi3 => he ⟨i, hi1, by omega, hi3⟩⟩
  obtain ⟨j, h1, h2, h3⟩ := key (k - n + 1) ⟨k, hk, by omega, hl⟩
  have hs := stays ht (j - n) fun i hi1 hi2 => h3 i hi1 (by omega)
  rw [show n + (j - n) = j by omega] at hs
  have ho := x.ok j _ h2
  generalize hs' : x.st (j + 1) = s' at ho
  cases ho with
  | run t mem hm ha => exact ⟨j, h1, hs.1, hs.2, hm, mem, by rw [hs']; exact ha⟩

/-- A thread whose step is possible again and again while it stays where it is, takes it. -/
theorem comes (h0 : Reach m (x.st 0)) (hf : FairRun x) {t n : Nat} (ht : (x.st n).th t ≠ .idle)
    (h : (∀ k, n ≤ k → (x.st k).th t = (x.st n).th t) → ∀ i, n ≤ i → ∃ k, i ≤ k ∧ may (x.st k) t = true) :
    ∃ k, n ≤ k ∧ x.lab k = some (.run t) := by
  by_cases hc : ∃ k, n ≤ k ∧ x.lab k = some (.run t)
  · exact hc
  · have hs : ∀ k, n ≤ k → (x.st k).th t = (x.st n).th t := by
      intro k hk
      have := (stays ht (k - n) fun i hi1 _ he => hc ⟨i, hi1, he⟩).1
      rwa [show n + (k - n) = k by omega] at this
    refine hf.run t (fun i => ?_) n
    obtain ⟨k, h1, h2⟩ := h hs (max n i) (by omega)
    exact ⟨k, by omega, enabled h0 h2⟩

/-- where a thread never waits -/
def free : Pc → Bool
  | .idle | .lWant | .lEnter _ => false
  | _ => true

theorem free_may {s : Sys} {t : Nat} (h : free (s.th t) = true) : may s t = true := by
  cases hc : s.th t <;> rw [hc] at h <;> simp [free] at h <;> simp [may, hc]

theorem free_next (h0 : Reach m (x.st 0)) (hf : FairRun x) {t n : Nat} (h : free ((x.st n).th t) = true) :
    ∃ k, n ≤ k ∧ (x.st k).th t = (x.st n).th t ∧ (x.st k).held t = (x.st n).held t ∧
      ∃ mem, act (x.st k) t mem = some (x.st (k + 1)) := by
  have ht : (x.st n).th t ≠ .idle := by intro e; rw [e] at h; cases h
  obtain ⟨k, h1, h2, h3, _, h5⟩ := next_step ht (comes h0 hf ht fun hs i hi => ⟨i, Nat.le_refl _, free_may (by rw [hs i hi]; exact h)⟩)
  exact ⟨k, h1, h2, h3, h5⟩

/-- The initialisation lock is free again and again. -/
theorem init_free (h0 : Reach m (x.st 0)) (hf : FairRun x) (n : Nat) : ∃ k, n ≤ k ∧ (x.st k).own = none := by
  have key : ∀ r n u, rank ((x.st n).th u) ≤ r → cs ((x.st n).th u) = true → ∃ k, n ≤ k ∧ (x.st k).own = none := by
    intro r
    induction r with
    | zero =>
      intro n u hr hc
      cases hp : (x.st n).th u <;> rw [hp] at hr hc <;> simp [rank, cs] at hr hc
    | succ r ih =>
      intro n u hr hc
      have hfr : free ((x.st n).th u) = true := by
        cases hp : (x.st n).th u <;> rw [hp] at hc <;> simp [cs] at hc <;> rfl
      obtain ⟨k, hk, hth, _, mem, ha⟩ := free_next h0 hf hfr
      have hrk := act_rank ha
      rw [hth] at hrk
      by_cases hcs : cs ((x.st (k + 1)).th u) = true
      · obtain ⟨j, hj, ho⟩ := ih (k + 1) u (by omega) hcs
        exact ⟨j, by omega, ho⟩
      · refine ⟨k + 1, by omega, ?_⟩
        have hv := (inv_all h0 k).own
        have hc' : cs ((x.st k).th u) = true := by rw [hth]; exact hc
        generalize hs' : x.st (k + 1) = s' at ha hcs ⊢
        cases hp : (x.st k).th u with
        | lLeave q =>
          simp only [act, hp] at ha
          cases ha; rfl
        | lChk =>
          simp only [act, hp] at ha
          cases ha
          exfalso; apply hcs
          simp only [Sys.go, if_true]
          split <;> rfl
        | lMake =>
          simp only [act, hp] at ha
          split at ha <;> cases ha <;> exact absurd (by simp [Sys.go, Sys.setObj, cs]) hcs
        | _ => rw [hp] at hc'; cases hc'
  cases ho : (x.st n).own with
  | none => exact ⟨n, Nat.le_refl _, ho⟩
  | some u => exact key _ n u (Nat.le_refl _) (((inv_all h0 n).own u).1 ho)

/-- A thread that has called `unlock` for its last hold is out of the critical section at some time. -/
theorem unlock_ends (h0 : Reach m (x.st 0)) (hf : FairRun x) (u n : Nat) (hh : (x.st n).held u = 0) :
    ∃ k, n ≤ k ∧ cnt (x.st k) u = 0 := by
  have key : ∀ r n, rank ((x.st n).th u) ≤ r → (x.st n).held u = 0 → ∃ k, n ≤ k ∧ cnt (x.st k) u = 0 := by
    intro r
    induction r with
    | zero =>
      intro n hr hh
      refine ⟨n, Nat.le_refl _, ?_⟩
      cases hp : (x.st n).th u <;> rw [hp] at hr <;> simp [rank] at hr
      simp [cnt, hp, unl, hh]
    | succ r ih =>
      intro n hr hh
      by_cases hu : unl ((x.st n).th u) = 0
      · exact ⟨n, Nat.le_refl _, by simp [cnt, hu, hh]⟩
      · have hfr : free ((x.st n).th u) = true := by
          cases hp : (x.st n).th u <;> rw [hp] at hu <;> simp [unl] at hu <;> rfl
        obtain ⟨k, hk, hth, hhe, mem, ha⟩ := free_next h0 hf hfr
        have hrk := act_rank ha
        rw [hth] at hrk
        have hh' : (x.st (k + 1)).held u = 0 := by
          rw [hh] at hhe
          rw [← hth] at hu
          generalize hs' : x.st (k + 1) = s' at ha ⊢
          cases hp : (x.st k).th u <;> rw [hp] at hu <;> simp [unl] at hu <;> simp only [act, hp] at ha <;>
            (try split at ha) <;> (try split at ha) <;> cases ha <;> simpa [Sys.go, Sys.setObj] using hhe
        obtain ⟨j, hj, hc⟩ := ih (k + 1) (by omega) hh'
        exact ⟨j, by omega, hc⟩
  exact key _ n (Nat.le_refl _) hh

/-- The critical section is free again and again. -/
theorem section_free (h0 : Reach m (x.st 0)) (hf : FairRun x) (n : Nat) (hm : Made (x.st n)) :
    ∃ k, n ≤ k ∧ Made (x.st k) ∧ owner (x.st k) = none := by
  have made : ∀ k, n ≤ k → Made (x.st k) :=
    Fair.Exec.always (x := x) hm fun k e _ hl hk => made_stays (inv_all h0 k) hk (x.ok k e hl)
  cases ho : owner (x.st n) with
  | none => exact ⟨n, Nat.le_refl _, hm, ho⟩
  | some u =>
    obtain ⟨k1, hk1, hh⟩ := hf.letGo u n
    obtain ⟨k2, hk2, hc⟩ := unlock_ends h0 hf u k1 hh
    have hne : owner (x.st k2) ≠ some u := by
      intro e
      obtain ⟨ow, c, hobj, hcase⟩ := (made k2 (by omega)).obj
      have how : ow = some u := by simpa [owner, hobj] using e
      subst how
      rcases hcase with ⟨a, _⟩ | ⟨w, a, b, d, _⟩
      · cases a
      · cases a; omega
    have key : ∀ d, owner (x.st (n + d)) = some u ∨ ∃ k, n ≤ k ∧ Made (x.st k) ∧ owner (x.st k) = none := by
      intro d
      induction d with
      | zero => exact .inl ho
      | succ d ih =>
        rcases ih with ih | ih
        · rw [← Nat.add_assoc]
          cases hl : x.lab (n + d) with
          | none => rw [x.idle _ hl]; exact .inl ih
          | some e =>
            rcases owner_step (inv_all h0 (n + d)) (made _ (by omega)) (x.ok _ e hl) ih with a | a
            · exact .inl a
            · exact .inr ⟨n + d + 1, by omega, made _ (by omega), a⟩
        · exact .inr ih
    rcases key (k2 - n) with h | h
    · rw [show n + (k2 - n) = k2 by omega] at h; exact absurd h hne
    · exact h

/-- **C105 (liveness).** In every fair infinite execution, every thread that is inside `pthread_mutex_lock` or
`pthread_mutex_unlock` at some time is outside again at a later time. -/
theorem every_call_returns (h0 : Reach m (x.st 0)) (hf : FairRun x) (t n : Nat) : ∃ k, n ≤ k ∧ (x.st k).th t = .idle := by
  have key : ∀ r n, rank ((x.st n).th t) ≤ r → ∃ k, n ≤ k ∧ (x.st k).th t = .idle := by
    intro r
    induction r with
    | zero =>
      intro n hr
      refine ⟨n, Nat.le_refl _, ?_⟩
      cases hp : (x.st n).th t <;> rw [hp] at hr <;> simp [rank] at hr
    | succ r ih =>
      intro n hr
      by_cases hid : (x.st n).th t = .idle
      · exact ⟨n, Nat.le_refl _, hid⟩
      · have hc : ∃ k, n ≤ k ∧ x.lab k = some (.run t) := by
          refine comes h0 hf hid fun hs i hi => ?_
          by_cases hfr : free ((x.st n).th t) = true
          · exact ⟨i, Nat.le_refl _, free_may (by rw [hs i hi]; exact hfr)⟩
          · cases hp : (x.st n).th t with
            | lWant =>
              obtain ⟨k, hk, ho⟩ := init_free h0 hf i
              exact ⟨k, hk, by simp [may, hs k (by omega), hp, ho]⟩
            | lEnter o =>
              have hmade : Made (x.st i) := (inv_all h0 i).made t (by rw [hs i hi, hp]; rfl)
              obtain ⟨k, hk, hmk, ho⟩ := section_free h0 hf i hmade
              have ho0 : o = 0 := by have := (inv_all h0 n).fine t; rw [hp] at this; exact this
              subst ho0
              obtain ⟨ow, c, hobj, _⟩ := hmk.obj
              have how : ow = none := by simpa [owner, hobj] using ho
              subst how
              exact ⟨k, hk, by simp [may, hs k (by omega), hp, hobj]⟩
            | idle => exact absurd hp hid
            | _ => rw [hp] at hfr; exact absurd rfl hfr
        obtain ⟨k, hk, hth, _, _, mem, ha⟩ := next_step hid hc
        have hrk := act_rank ha
        rw [hth] at hrk
        obtain ⟨j, hj, hd⟩ := ih (k + 1) (by omega)
        exact ⟨j, by omega, hd⟩
  exact key _ n (Nat.le_refl _)

/-! ## A fair execution -/

def exec1 : Ev × Bool → Sys → Option Sys
  | (.lock t, _), s => if s.th t = .idle then some (s.go t .lNull) else none
  | (.unlock t, _), s => if s.th t = .idle ∧ 0 < s.held t then
      some ({ s with held := fun k => if k = t then s.held t - 1 else s.held k }.go t .uNull) else none
  | (.run t, mem), s => if may s t = true then act s t mem else none

theorem exec1_sound (a : Ev × Bool) (s u : Sys) (h : exec1 a s = some u) : AStep a.1 s u := by
  obtain ⟨e, b⟩ := a
  cases e with
  | lock t => simp only [exec1] at h; split at h <;> cases h; rename_i hi; exact .lock t hi
  | unlock t => simp only [exec1] at h; split at h <;> cases h; rename_i hi; exact .unlock t hi.1 hi.2
  | run t =>
    simp only [exec1] at h
    split at h
    · rename_i hm; exact .run t b hm h
    · cases h

def tid : Ev → Nat
  | .lock t | .unlock t | .run t => t

theorem exec1_others {a : Ev × Bool} {s u : Sys} (h : exec1 a s = some u) {j : Nat} (hj : j ≠ tid a.1) :
    u.th j = s.th j ∧ u.held j = s.held j := by
  obtain ⟨e, b⟩ := a
  cases e with
  | lock t =>
    have hj : j ≠ t := hj
    simp only [exec1] at h; split at h <;> cases h; simp [Sys.go, hj]
  | unlock t =>
    have hj : j ≠ t := hj
    simp only [exec1] at h; split at h <;> cases h; simp [Sys.go, hj]
  | run t =>
    have hj : j ≠ t := hj
    simp only [exec1] at h; split at h
    · obtain ⟨⟨c, hc⟩, hh⟩ := act_local h
      exact ⟨by rw [hc]; simp [hj], hh j hj⟩
    · cases h

theorem runs_others {as : List (Ev × Bool)} {s u : Sys} (h : Fair.runs exec1 as s = some u) {j : Nat}
    (hj : ∀ a ∈ as, j ≠ tid a.1) : u.th j = s.th j ∧ u.held j = s.held j := by
  induction as generalizing s with
  | nil => simp [Fair.runs] at h; subst h; exact ⟨rfl, rfl⟩
  | cons a as ih =>
    simp only [Fair.runs] at h
    cases he : exec1 a s with
    | none => simp [he] at h
    | some v =>
      simp only [he, Option.bind_some] at h
      have h1 := ih h fun b hb => hj b (List.mem_cons_of_mem _ hb)
      have h2 := exec1_others he (hj a (List.mem_cons_self ..))
      exact ⟨h1.1.trans h2.1, h1.2.trans h2.2⟩

def rep (n : Nat) (a : Ev × Bool) : List (Ev × Bool) := List.replicate n a

/-- Thread 1 fails to make the object, thread 0 makes it, thread 1 comes again and waits for thread 0 … -/
def first : List (Ev × Bool) := [(.lock 0, true), (.lock 1, true)] ++ rep 2 (.run 0, true) ++ rep 4 (.run 1, true) ++
  rep 3 (.run 1, false) ++ rep 6 (.run 0, true) ++ [(.lock 1, true)] ++ rep 3 (.run 1, true)

/-- … which lets go. -/
def second : List (Ev × Bool) := rep 1 (.run 0, true) ++ [(.unlock 0, true)] ++ rep 5 (.run 0, true) ++ rep 2 (.run 1, true) ++
  [(.unlock 1, true)] ++ rep 5 (.run 1, true)

def firstOk (s : Sys) : Bool := decide (s.th 0 = .lRet 0 ∧ s.th 1 = .lEnter 0 ∧ s.held 0 = 1) && !may s 1
def secondOk (s : Sys) : Bool := decide (s.th 0 = .idle ∧ s.th 1 = .idle ∧ s.held 0 = 0 ∧ s.held 1 = 0)

theorem first_runs : (Fair.runs exec1 first (Sys.init 1)).any firstOk = true := by decide
theorem second_runs : (Fair.runs exec1 (first ++ second) (Sys.init 1)).any secondOk = true := by decide

/-- A fair execution in which, at some time, thread 1 waits for the mutex that thread 0 holds. -/
example : ∃ x : Exec AStep, Reach 1 (x.st 0) ∧ FairRun x ∧ ∃ k, firstOk (x.st k) = true := by
  obtain ⟨v, hv, hvo⟩ := (Option.any_eq_true _ _).1 first_runs
  obtain ⟨u, hu, huo⟩ := (Option.any_eq_true _ _).1 second_runs
  obtain ⟨x, e0, hend, _, hst, hfair⟩ := Fair.exists_finite (step := AStep) Prod.fst exec1 exec1_sound hu
  simp only [secondOk, decide_eq_true_eq] at huo
  have hall : ∀ t, u.th t = .idle ∧ u.held t = 0 := by
    intro t
    by_cases h0 : t = 0
    · subst h0; exact ⟨huo.1, huo.2.2.1⟩
    · by_cases h1 : t = 1
      · subst h1; exact ⟨huo.2.1, huo.2.2.2⟩
      · refine runs_others hu (fun a ha => ?_)
        have : ∀ a ∈ first ++ second, tid a.1 = 0 ∨ tid a.1 = 1 := by decide
        rcases this a ha with h | h <;> omega
  refine ⟨x, by rw [e0]; exact .init, ⟨fun t => hfair _ ?_, fun t n => ⟨max n (first ++ second).length, by omega, ?_⟩⟩,
    first.length, ?_⟩
  · intro w hw
    cases hw with
    | run t mem hm ha => simp [may, (hall t).1] at hm
  · rw [hend _ (by omega)]; exact (hall t).2
  · rw [hst, List.take_left, hv]; exact hvo

end Verif.WinMutex
