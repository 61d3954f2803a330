import Verif.Mcs.Progress

/-!
# The MCS lock of the Windows pthread layer (C55)

`Reach N true` are the states reachable by any interleaving of any number of threads that call
`acquire`, `try_acquire` and `release` with `N` nodes, where a node is not used again before the
thread that queued behind it has finished its write to the node (`Step`, parameter `strict`).
`Reach N false` drops that condition: `reuse_crashes` shows that it is needed, and
`late_write` that the code itself does not ensure it.
-/
namespace Verif.Mcs

/-- The call that used node `p` owns the lock: `acquire` has returned, `release` was not called. -/
def Holds (s : Sys) (p : Nat) : Prop := (s.nd p).pc = .hold

/-- No call uses node `p`. -/
def Idle (s : Sys) (p : Nat) : Prop := (s.nd p).pc = .gone

/-- C55: at most one holder, in every interleaving. -/
theorem mutual_exclusion {N : Nat} {s : Sys} (h : Reach N true s) {p p' : Nat}
    (hp : Holds s p) (hp' : Holds s p') : p = p' := by
  obtain ⟨q, rm, hi⟩ := inv_reach h
  have h1 := hi.owner_head (p := p) (by simp [Holds] at hp; simp [hp, InQ]) (by simp [Holds] at hp; simp [hp, Waits])
  have h2 := hi.owner_head (p := p') (by simp [Holds] at hp'; simp [hp', InQ]) (by simp [Holds] at hp'; simp [hp', Waits])
  rw [h1] at h2; exact Option.some.inj h2

/-- C55: the lock is granted in the order in which the calls joined the queue (the order of their
exchange on the lock word); `ent` lists the grants, `arr` the arrivals. -/
theorem fifo {N : Nat} {s : Sys} (h : Reach N true s) : s.ent <+: s.arr := by
  obtain ⟨q, rm, hi⟩ := inv_reach h
  rw [hi.arr]
  cases q with
  | nil => rw [hi.entN (by simp)]; simp
  | cons x t =>
    by_cases ho : Own (s.nd x).pc
    · rw [hi.entY x rfl ho]; exact ⟨t, by simp⟩
    · rw [hi.entN (fun y hy => by simp at hy; exact hy ▸ ho)]; simp

/-- The logs record what they are said to record: a call's step that makes it a holder is logged
in `ent`, and nothing else is. -/
theorem ent_log {N : Nat} {b : Bool} {s s' : Sys} (st : Step N b s s') :
    (s'.ent = s.ent ∧ ∀ p, Holds s' p → Holds s p) ∨
    ∃ p, s'.ent = s.ent ++ [p] ∧ ¬ Holds s p ∧ Holds s' p ∧ ∀ k, k ≠ p → Holds s' k → Holds s k := by
  cases st with
  | run p hp e =>
    have hk := (run_left e).2
    by_cases hh : (s'.nd p).pc = .hold
    · right
      refine ⟨p, ?_, ?_, hh, fun k hk' h => by rw [Holds, hk k hk'] at h; exact h⟩
      · simp only [run] at e
        split at e <;> (try split at e) <;> cases e <;> simp_all [Sys.enter, Sys.go, Sys.set, upd]
      · simp only [Holds]; intro e2; simp [run, e2] at e
    · left
      refine ⟨?_, fun k h => ?_⟩
      · simp only [run] at e
        split at e <;> (try split at e) <;> cases e <;> simp_all [Sys.enter, Sys.go, Sys.set, upd]
      · by_cases h2 : k = p
        · exact absurd (h2 ▸ h) hh
        · rw [Holds, hk k h2] at h; exact h
  | acquire p hp hg hs =>
    left
    refine ⟨rfl, fun k h => ?_⟩
    by_cases h2 : k = p
    · subst h2; simp [Holds, callAcquire, Sys.set, upd] at h
    · simpa [Holds, callAcquire, Sys.set, upd, h2] using h
  | tryAcquire p hp hg hs =>
    simp only [callTry]
    split
    · right
      refine ⟨p, rfl, by simp [Holds, hg], by simp [Holds, Sys.enter, Sys.go, Sys.set, upd], fun k hk h => ?_⟩
      simpa [Holds, Sys.enter, Sys.go, Sys.set, upd, hk] using h
    · left
      refine ⟨rfl, fun k h => ?_⟩
      by_cases h2 : k = p
      · subst h2; simp [Holds, Sys.set, upd] at h
      · simpa [Holds, Sys.set, upd, h2] using h
  | release p hp hg =>
    left
    refine ⟨rfl, fun k h => ?_⟩
    by_cases h2 : k = p
    · subst h2; simp [Holds, callRelease, Sys.go, Sys.set, upd] at h
    · simpa [Holds, callRelease, Sys.go, Sys.set, upd, h2] using h

/-- ... and an arrival is logged exactly when a node becomes the last of the queue. -/
theorem arr_log {N : Nat} {b : Bool} {s s' : Sys} (st : Step N b s s') :
    (s'.arr = s.arr ∧ (s'.lock = s.lock ∨ s'.lock = none)) ∨
    ∃ p, s'.arr = s.arr ++ [p] ∧ s'.lock = some p := by
  cases st with
  | run p hp e =>
    simp only [run] at e
    split at e <;> (try split at e) <;> cases e <;> simp [Sys.enter, Sys.go, Sys.set]
  | acquire p hp hg hs => left; exact ⟨rfl, Or.inl rfl⟩
  | tryAcquire p hp hg hs =>
    simp only [callTry]
    split
    · right; exact ⟨p, rfl, rfl⟩
    · left; exact ⟨rfl, Or.inl rfl⟩
  | release p hp hg => left; exact ⟨rfl, Or.inl rfl⟩

/-- C55: no null pointer is dereferenced, no finished node is accessed (except the write that
`late_write` is about) and no event is signalled that nobody waits on. -/
theorem memory_safe {N : Nat} {s : Sys} (h : Reach N true s) :
    s.bad = false ∧ ∀ p, (s.nd p).pc ≠ .ub := by
  obtain ⟨q, rm, hi⟩ := inv_reach h
  exact ⟨hi.bad, hi.ub⟩

/-- C55: while some call is in progress and nobody holds the lock, some thread can take a step:
a release always wakes the successor, no wake-up is lost. -/
theorem no_deadlock {N : Nat} {s : Sys} (h : Reach N true s) (hno : ∀ p, ¬ Holds s p)
    {p : Nat} (hp : ¬ Idle s p) : ∃ k s', k < N ∧ run s k = some s' := by
  obtain ⟨q, rm, hi⟩ := inv_reach h
  obtain ⟨k, s', e⟩ := can_run hi hno hp
  exact ⟨k, s', active_lt h k (fun hg => by simp [run, hg] at e), e⟩

/-- Sequences of steps without new calls of `acquire`. -/
inductive Drains (N : Nat) : Nat → Sys → Sys → Prop where
  | nil {s : Sys} : Drains N 0 s s
  | cons {n : Nat} {s t u : Sys} : Drain N s t → Drains N n t u → Drains N (n + 1) s u

theorem Drains.reach {N n : Nat} {s s' : Sys} (d : Drains N n s s') (h : Reach N true s) :
    Reach N true s' := by
  induction d with
  | nil => exact h
  | cons d _ ih => exact ih (h.step d.step)

/-- Every schedule without new arrivals is finite: at most 16 steps per node. -/
theorem drains_bounded {N n : Nat} {s s' : Sys} (d : Drains N n s s') : n ≤ 16 * N := by
  have h1 : n + rank N s' ≤ rank N s := by
    induction d with
    | nil => omega
    | cons d _ ih => have := d.rank; omega
  have h2 : rank N s ≤ 16 * N := by
    have hl : ∀ c, left c ≤ 16 := by intro c; cases c <;> simp [left]
    clear d h1
    simp only [rank]
    induction N with
    | zero => simp
    | succ N ih =>
      simp only [List.range_succ, List.map_append, List.sum_append, List.map_cons, List.map_nil,
        List.sum_cons, List.sum_nil]
      have := hl (s.nd N).pc
      omega
  omega

/-- A schedule without new arrivals can only stop when every call has returned: then everybody who
joined the queue has had the lock, in order, and the lock is free. -/
theorem drained {N : Nat} {s : Sys} (h : Reach N true s) (hstuck : ∀ s', ¬ Drain N s s') :
    (∀ p, Idle s p) ∧ s.lock = none ∧ s.ent = s.arr := by
  have hno : ∀ p, ¬ Holds s p := fun p hp =>
    hstuck _ (.release p (active_lt h p (by simp [Holds] at hp; simp [hp])) hp)
  have hid : ∀ p, Idle s p := fun p => Classical.byContradiction (fun hp => by
    obtain ⟨k, s', hk, e⟩ := no_deadlock h hno hp
    exact hstuck _ (.run k hk e))
  obtain ⟨q, rm, hi⟩ := inv_reach h
  have hq : q = [] := by
    cases q with
    | nil => rfl
    | cons x t => have := (hi.mem x).1 (by simp); exact absurd (hid x) this.1
  subst hq
  exact ⟨hid, by simp [hi.lock], by rw [hi.arr, hi.entN (by simp)]; simp⟩

/-- C55: from every reachable state, if holders release, everybody waiting gets the lock in turn:
there is a schedule that drains the queue (and by `drains_bounded` no schedule avoids it forever). -/
theorem all_served {N : Nat} {s : Sys} (h : Reach N true s) :
    ∃ n s', Drains N n s s' ∧ (∀ p, Idle s' p) ∧ s'.lock = none ∧ s'.ent = s'.arr ∧ s.arr <+: s'.arr := by
  have hmono : ∀ s s', Drain N s s' → s.arr <+: s'.arr := by
    intro s s' d
    cases d with
    | run p hp e =>
      simp only [run] at e
      split at e <;> (try split at e) <;> cases e <;> simp [Sys.enter, Sys.go, Sys.set]
    | release p hp hg => simp [callRelease, Sys.go, Sys.set]
  generalize hr : rank N s = r
  induction r using Nat.strongRecOn generalizing s with
  | ind r ih =>
    by_cases hs : ∃ s', Drain N s s'
    · obtain ⟨t, ht⟩ := hs
      obtain ⟨n, s', d, h1, h2, h3, h4⟩ := ih (rank N t) (hr ▸ ht.rank) (h.step ht.step) rfl
      exact ⟨n + 1, s', .cons ht d, h1, h2, h3, (hmono _ _ ht).trans h4⟩
    · have hs' : ∀ s', ¬ Drain N s s' := fun s' d => hs ⟨s', d⟩
      obtain ⟨h1, h2, h3⟩ := drained h hs'
      exact ⟨0, s, .nil, h1, h2, h3, List.prefix_refl _⟩

/-- `try_acquire` on a lock nobody uses succeeds. -/
theorem try_free {N : Nat} {s : Sys} (h : Reach N true s) (hid : ∀ p, Idle s p) (p : Nat) :
    Holds (callTry s p) p := by
  obtain ⟨q, rm, hi⟩ := inv_reach h
  have hq : q = [] := by
    cases q with
    | nil => rfl
    | cons x t => have := (hi.mem x).1 (by simp); exact absurd (hid x) this.1
  subst hq
  have hl : s.lock = none := by simp [hi.lock]
  simp [callTry, hl, Holds, Sys.enter, Sys.go, Sys.set, upd]

/-- `try_acquire` fails while somebody holds the lock or waits for it, and leaves no trace. -/
theorem try_busy {N : Nat} {s : Sys} (h : Reach N true s) (p : Nat) {k : Nat}
    (hk : Holds s k ∨ ∃ r, (s.nd k).pc = .a1 r ∨ (s.nd k).pc = .w2) :
    Idle (callTry s p) p ∧ (callTry s p).lock = s.lock ∧ (callTry s p).arr = s.arr ∧
      ∀ j, j ≠ p → (callTry s p).nd j = s.nd j := by
  obtain ⟨q, rm, hi⟩ := inv_reach h
  have hq : k ∈ q := (hi.mem k).2 (by
    rcases hk with hk | ⟨r, hk | hk⟩
    · simp only [Holds] at hk; simp [hk, InQ]
    · simp [hk, InQ]
    · simp [hk, InQ])
  have hl : s.lock ≠ none := by
    rw [hi.lock]; intro e; rw [List.getLast?_eq_none_iff] at e; subst e; simp at hq
  simp only [callTry, if_neg hl]
  exact ⟨by simp [Idle, Sys.set, upd], rfl, rfl, fun j hj => by simp [Sys.set, upd, hj]⟩

/-- An event of a schedule. -/
inductive Ev where
  | acq (p : Nat) | run (p : Nat) | rel (p : Nat)

/-- Execute a schedule (the nodes may be used again at once). -/
def exec (N : Nat) : List Ev → Sys → Option Sys
  | [], s => some s
  | .acq p :: es, s => if p < N ∧ (s.nd p).pc = .gone then exec N es (callAcquire s p) else none
  | .rel p :: es, s => if p < N ∧ (s.nd p).pc = .hold then exec N es (callRelease s p) else none
  | .run p :: es, s => if p < N then (match run s p with | some s' => exec N es s' | none => none) else none

theorem exec_reach {N : Nat} {es : List Ev} : ∀ {s s' : Sys}, Reach N false s → exec N es s = some s' →
    Reach N false s' := by
  induction es with
  | nil => intro s s' h e; cases e; exact h
  | cons e es ih =>
    intro s s' h e'
    cases e with
    | acq p =>
      simp only [exec] at e'
      split at e'
      · rename_i hc
        exact ih (h.step (.acquire p hc.1 hc.2 (by simp))) e'
      · cases e'
    | rel p =>
      simp only [exec] at e'
      split at e'
      · rename_i hc
        exact ih (h.step (.release p hc.1 hc.2)) e'
      · cases e'
    | run p =>
      simp only [exec] at e'
      split at e'
      · rename_i hc
        split at e'
        · rename_i s1 hs1
          exact ih (h.step (.run p hc hs1)) e'
        · cases e'
      · cases e'

/-- Two threads, each with one node that it uses again: thread 0 releases to thread 1, which has
linked itself but not yet set `nextFlag`; thread 0 acquires again with the same node, thread 1's
delayed write marks the new use of the node, and thread 0's next release believes it has a
successor. -/
def crash : List Ev :=
  [.acq 0, .run 0, .acq 1, .run 1, .run 1, .rel 0, .run 0, .run 0, .acq 0, .run 0, .run 1, .run 1,
   .run 0, .run 0, .rel 1, .run 1, .run 1, .run 0, .acq 1, .run 1, .rel 0, .run 0, .run 0, .run 0, .run 0]

/-- Finding: when a node's memory is used again at once (as every caller in
pthread_win_simple.c does: the nodes are local variables), two threads can make `release`
dereference a null pointer. -/
theorem reuse_crashes : ∃ s, Reach 2 false s ∧ (s.nd 0).pc = .ub := by
  have h : (exec 2 crash Sys.init).map (fun s => (s.nd 0).pc) = some .ub := by decide +kernel
  cases e : exec 2 crash Sys.init with
  | none => rw [e] at h; cases h
  | some s => rw [e] at h; exact ⟨s, exec_reach .init e, by simpa using h⟩

/-- Finding: even without any reuse, `acquire` writes `nextFlag` of a node whose `release` has
returned (so the write goes to a dead local variable). -/
theorem late_write : ∃ s, Reach 2 true s ∧ s.late = true := by
  let s1 := callAcquire Sys.init 0
  have h1 : Reach 2 true s1 := .step .init (.acquire 0 (by omega) rfl (by simp [Sys.init]))
  let s2 := callAcquire s1 1
  have h2 : Reach 2 true s2 := h1.step (.acquire 1 (by omega) rfl (by
    intro _ k; simp [s1, callAcquire, Sys.set, Sys.init, upd]; split <;> simp))
  obtain ⟨s3, e3⟩ : ∃ s3, run s2 0 = some s3 := ⟨_, rfl⟩
  have h3 := h2.step (.run 0 (by omega) e3)
  obtain ⟨s4, e4⟩ : ∃ s4, run s3 1 = some s4 := by cases e3; exact ⟨_, rfl⟩
  have h4 := h3.step (.run 1 (by omega) e4)
  obtain ⟨s5, e5⟩ : ∃ s5, run s4 1 = some s5 := by cases e3; cases e4; exact ⟨_, rfl⟩
  have h5 := h4.step (.run 1 (by omega) e5)
  have h6 : Reach 2 true (callRelease s5 0) := h5.step (.release 0 (by omega) (by
    cases e3; cases e4; cases e5; rfl))
  obtain ⟨s7, e7⟩ : ∃ s7, run (callRelease s5 0) 0 = some s7 := by
    cases e3; cases e4; cases e5; exact ⟨_, rfl⟩
  have h7 := h6.step (.run 0 (by omega) e7)
  obtain ⟨s8, e8⟩ : ∃ s8, run s7 0 = some s8 := by
    cases e3; cases e4; cases e5; cases e7; exact ⟨_, rfl⟩
  have h8 := h7.step (.run 0 (by omega) e8)
  obtain ⟨s9, e9⟩ : ∃ s9, run s8 1 = some s9 := by
    cases e3; cases e4; cases e5; cases e7; cases e8; exact ⟨_, rfl⟩
  have h9 := h8.step (.run 1 (by omega) e9)
  refine ⟨s9, h9, ?_⟩
  cases e3; cases e4; cases e5; cases e7; cases e8; cases e9; rfl

/-- Not vacuous: a state with one holder and two waiters, one of them asleep on its event. -/
example : (exec 3 [.acq 0, .run 0, .acq 1, .run 1, .acq 2, .run 1, .run 1, .run 1, .run 1, .run 2]
    Sys.init).map (fun s => ((s.nd 0).pc, (s.nd 1).pc, (s.nd 2).pc, s.arr, s.ent)) =
    some (.hold, .w2, .a1 1, [0, 1, 2], [0]) := by decide +kernel

end Verif.Mcs
