import Verif.Thpool.Exec
import Verif.Thpool.Order
/-!
# C53, C54: the thread pool
-/
namespace Verif.Thpool
variable {J : Type}

/-! ## C53 -/

/-- **C53** (memory safety): no worker and no adding thread ever dereferences a null or freed job. -/
theorem no_undefined {s : Sys J} (h : Reach s) :
    (∀ i : Nat, s.wrk[i]? ≠ some .ub) ∧ (∀ t : Nat, s.sub[t]? ≠ some .ub) := by
  obtain ⟨L, q⟩ := h.inv.q
  exact ⟨fun i hi => q.wrk _ _ hi, fun t ht => q.sub _ _ ht⟩

/-- **C53** (FIFO): the jobs taken by the workers, in the order in which they were taken, are the first jobs added, and
the number of jobs in between is what `len` says. -/
theorem fifo {s : Sys J} (h : Reach s) : s.dequeued <+: s.added ∧ s.dequeued.length + s.len = s.added.length := by
  obtain ⟨L, q⟩ := h.inv.q
  have a : s.len = L.length := q.base.len
  have b : L.length + s.dequeued.length = s.added.length := q.base.cnt
  exact ⟨q.base.deq, by omega⟩

/-- **C53** (at most once, the right function and argument): every call of a job function is the function and argument of
the job with that number, no job is called twice, and a job is finished at most once and only after its call. -/
theorem called_at_most_once {s : Sys J} (h : Reach s) :
    (∀ x, x ∈ s.calls → s.added[x.1]? = some x.2) ∧ (s.calls.map (·.1)).Nodup ∧
    s.done.Nodup ∧ (∀ id, id ∈ s.done → id ∈ s.calls.map (·.1)) := by
  have hI := h.inv
  refine ⟨?_, hI.jobs.nd, hI.jobs.dnd, hI.jobs.done⟩
  intro x hx
  have h1 := hI.jobs.job x hx
  obtain ⟨T, hT⟩ := (fifo h).1
  rw [← hT, List.getElem?_append_left]
  · exact h1
  · rcases Nat.lt_or_ge x.1 s.dequeued.length with h' | h'
    · exact h'
    · rw [List.getElem?_eq_none h'] at h1; simp at h1

/-- **C53** (no job disappears): every job added is in the queue, or a worker holds it and is about to call its function,
or its function is being executed, or it has been executed. -/
theorem no_job_lost {s : Sys J} (h : Reach s) (id : Nat) (hid : id < s.added.length) :
    s.dequeued.length ≤ id ∨ (∃ (i p : Nat), s.wrk[i]? = some (.p2c (some p) id) ∨ s.wrk[i]? = some (.punl (some p) id) ∨
      s.wrk[i]? = some (.call (some p) id)) ∨ (∃ (i p : Nat), s.wrk[i]? = some (.running p id)) ∨ id ∈ s.done := by
  have hI := h.inv
  rcases Nat.lt_or_ge id s.dequeued.length with hlt | hge
  · right
    rcases hI.jobs.all id hlt with h1 | ⟨i, pc, h1, h2⟩
    · rcases hI.jobs.fin id h1 with h1 | ⟨i, pc, h1, h2⟩
      · exact .inr (.inr h1)
      · cases pc with
        | running p k => simp [run] at h2; subst h2; exact .inr (.inl ⟨i, p, ‹_›⟩)
        | _ => simp [run] at h2
    · left
      cases pc with
      | p2c jp k => cases jp with
        | none => simp [pre] at h2
        | some p => simp [pre] at h2; subst h2; exact ⟨i, p, .inl h1⟩
      | punl jp k => cases jp with
        | none => simp [pre] at h2
        | some p => simp [pre] at h2; subst h2; exact ⟨i, p, .inr (.inl h1)⟩
      | call jp k => cases jp with
        | none => simp [pre] at h2
        | some p => simp [pre] at h2; subst h2; exact ⟨i, p, .inr (.inr h1)⟩
      | _ => simp [pre] at h2
  · exact .inl hge

/-- **C53** (one worker): a pool of one worker executes the jobs one after the other in the order in which they were
added. -/
theorem one_worker_in_order {s : Sys J} (h : Reach s) (hn : s.wrk.length = 1) :
    s.calls.map (·.2) <+: s.added ∧ s.calls.map (·.1) = List.range s.calls.length ∧ s.done = List.range s.done.length ∧
    s.done.length ≤ s.calls.length ∧ s.calls.length ≤ s.done.length + 1 := by
  have hS := h.solo hn
  have hc := (called_at_most_once h).1
  have h0 : s.wrk[0]? = some s.wrk[0] := List.getElem?_eq_getElem (by omega)
  have hf := (hS.fin _ h0).1
  refine ⟨?_, hS.calls, hS.done, by omega, by split at hf <;> omega⟩
  have key : ∀ k, k < s.calls.length → (s.calls.map (·.2))[k]? = s.added[k]? := by
    intro k hk
    have h1 : s.calls[k]? = some s.calls[k] := List.getElem?_eq_getElem hk
    have h2 := hc _ (List.mem_of_getElem? h1)
    have h3 : s.calls[k].1 = k := by
      have : (s.calls.map (·.1))[k]? = (List.range s.calls.length)[k]? := by rw [hS.calls]
      simp [hk] at this; exact this
    rw [List.getElem?_map, h1, Option.map_some, ← h2, h3]
  rw [List.prefix_iff_eq_take]
  refine List.ext_getElem? ?_
  intro k
  rcases Nat.lt_or_ge k s.calls.length with hk | hk
  · rw [key k hk, List.getElem?_take]; simp [hk]
  · rw [List.getElem?_eq_none (by simpa using hk), List.getElem?_eq_none]
    simp; omega

/-- **C53** (no lost wake-up): as long as the pool is not being destroyed, a queued job means that the semaphore is set,
or some worker is awake and on its way to the queue or to passing the wake-up on, or the adding thread is about to post;
and a set semaphore means that some worker has been woken or none sleeps. -/
theorem no_lost_wakeup {s : Sys J} (h : Reach s) (hk : s.dst = .no) :
    (0 < s.len → s.v = true ∨ (∃ (i : Nat) (pc : Wrk), s.wrk[i]? = some pc ∧ pc ≠ .asleep ∧ pc ≠ .gone) ∨
      ∃ (t id : Nat), s.sub[t]? = some (.s4 id)) ∧
    (s.v = true → (∃ i : Nat, s.wrk[i]? = some .woken) ∨ ∀ i : Nat, s.wrk[i]? ≠ some .asleep) := by
  have hI := h.inv
  have hkeep : s.keep = true := by
    cases hc : s.keep with
    | true => rfl
    | false => exact absurd hk (hI.life.keep.1 hc)
  refine ⟨fun hl => ?_, hI.tok.wake⟩
  rcases hI.tok.tok hkeep hl with h | ⟨i, pc, a, b⟩ | h
  · exact .inl h
  · exact .inr (.inl ⟨i, pc, a, by rintro rfl; simp [carr] at b, by rintro rfl; simp [carr] at b⟩)
  · exact .inr (.inr h)

/-- **C53** (consequence): if all workers sleep and nobody is between putting a job into the queue and posting, the queue
is empty and every job ever added has been executed. -/
theorem all_asleep_all_done {s : Sys J} (h : Reach s) (hk : s.dst = .no) (hn : 0 < s.wrk.length) (ha : AllAsleep s)
    (hs : ∀ (t id : Nat), s.sub[t]? ≠ some (.s4 id)) : s.len = 0 ∧ ∀ id, id < s.added.length → id ∈ s.done := by
  have hI := h.inv
  have h0 : s.wrk[0]? = some .asleep := by
    have := List.getElem?_eq_getElem hn
    rw [this, ha 0 _ this]
  have hl : s.len = 0 := by
    rcases Nat.eq_zero_or_pos s.len with h' | h'
    · exact h'
    · exfalso
      obtain ⟨h1, h2⟩ := no_lost_wakeup h hk
      rcases h1 h' with hv | ⟨i, pc, a, b, _⟩ | ⟨t, id, a⟩
      · rcases h2 hv with ⟨i, hi⟩ | hi
        · have := ha i _ hi; simp at this
        · exact hi 0 h0
      · exact b (ha i pc a)
      · exact hs t id a
  refine ⟨hl, ?_⟩
  have hw : s.working = 0 := by
    rw [hI.working, cnt_zero]; intro i a h; rw [ha i a h]; rfl
  intro id hid
  have := (fifo h).2
  exact idle_done hI.jobs hI.working hw id (by omega)

/-- **C53** (every job is executed): if job functions return, then from any reachable state of a pool that is not being
destroyed, with at least one worker, the threads inside the library cannot go on forever without a new call or a
spurious wake-up, and when they all have come to rest every job ever added has been executed. -/
theorem every_job_executed {s : Sys J} (h : Reach s) (hk : s.dst = .no) (hn : 0 < s.wrk.length) :
    (∀ run : Nat → Sys J, run 0 = s → (∀ k, ∃ e, e.Internal ∧ Step e (run k) (run (k + 1))) → False) ∧
    (∀ u, Steps Ev.Internal s u → Stuck u →
      AllAsleep u ∧ u.len = 0 ∧ u.working = 0 ∧ (∀ id, id < u.added.length → id ∈ u.done)) := by
  have hI := h.inv
  refine ⟨fun run h0 hr => no_infinite hI run h0 hr, fun u hu hst => ?_⟩
  have hUI := Inv.steps hu hI
  have hd : u.dst = .no ∧ u.wrk.length = s.wrk.length :=
    Steps.keeps (P := fun x => x.dst = .no ∧ x.wrk.length = s.wrk.length)
      (fun e a b he st hp => ⟨(internal_dst he st).1.trans hp.1, (length_step st).1.trans hp.2⟩) hu ⟨hk, rfl⟩
  have hkeep : u.keep = true := by
    cases hc : u.keep with
    | true => rfl
    | false => exact absurd hd.1 (hUI.life.keep.1 hc)
  have hq := Stuck.quiet hUI hst
  refine ⟨?_, Quiet.done hUI hq hkeep (by omega)⟩
  intro i x hx
  rcases hq.wrk i x hx with h' | rfl
  · exact h'
  · have := hUI.life.out i _ hx rfl; rw [hkeep] at this; simp at this

/-- **C53** (`thpool_num_threads_working`): the counter is the number of workers between their increment and their
decrement; in particular it is at least 1 while a job function runs. -/
theorem working_counts {s : Sys J} (h : Reach s) (i : Nat) (hr : Running s i) : 1 ≤ s.working ∧ s.working ≤ s.wrk.length := by
  have hI := h.inv
  obtain ⟨p, id, hp⟩ := hr
  have h1 := cnt_le win hp
  have h2 := (cnt_full (f := win) (l := s.wrk) (by intro a; cases a <;> simp [win])).1
  rw [hI.working]
  exact ⟨h1, h2⟩

/-! ## C54 -/

/-- **C54**: a call of `thpool_wait` by thread `t` returns only after every job whose `thpool_add_work` had returned when
`thpool_wait` was called has been executed. -/
theorem wait_returns_after_done {s s1 s2 : Sys J} {t : Nat} (h : Reach s) (hc : Step (.wait t) s s1)
    (hs : Steps (fun e => e ≠ .wait t) s1 s2) (hr : NotWaiting s2 t) : ∀ id, id ∈ s.returned → id ∈ s2.done := by
  have h1 : Inv s1 := h.inv.step hc
  have key : Inv s2 ∧ ((∃ pc, s2.wt[t]? = some pc ∧ pc ≠ .idle ∧ snapOf pc = s.returned) ∨ ∀ id, id ∈ s.returned → id ∈ s2.done) := by
    refine Steps.keeps (P := fun x => Inv x ∧ ((∃ pc, x.wt[t]? = some pc ∧ pc ≠ .idle ∧ snapOf pc = s.returned) ∨
      ∀ id, id ∈ s.returned → id ∈ x.done)) ?_ hs ⟨h1, ?_⟩
    · intro e a b he st ⟨hi, hp⟩
      refine ⟨hi.step st, ?_⟩
      rcases hp with ⟨pc, p1, p2, p3⟩ | hp
      · have hv := hi.wt.wt t pc p1
        have other : ∀ {k : Nat} {y z : Wt}, a.wt[k]? = some y → (y = pc → t = k → z ≠ .idle ∧ snapOf z = s.returned) →
            ∃ w, (a.wt.set k z)[t]? = some w ∧ w ≠ .idle ∧ snapOf w = s.returned := by
          intro k y z hk hz
          by_cases e : t = k
          · subst e; rw [p1] at hk; simp at hk; subst hk
            exact ⟨z, set_self p1, hz rfl rfl⟩
          · exact ⟨pc, by rw [set_other e]; exact p1, p2, p3⟩
        cases st with
        | p2c _ hpo => obtain ⟨W, rfl, _⟩ := hpo.eq; exact .inl ⟨pc, p1, p2, p3⟩
        | s4 _ hpo => obtain ⟨W, rfl, _⟩ := hpo.eq; exact .inl ⟨pc, p1, p2, p3⟩
        | dec_last _ _ _ hn =>
          obtain ⟨T, rfl, hT⟩ := hn.eq
          rcases hT with ⟨k, n, hk, rfl⟩ | ⟨_, rfl⟩
          · exact .inl (other hk (fun e _ => by subst e; exact ⟨by simp, p3⟩))
          · exact .inl ⟨pc, p1, p2, p3⟩
        | @wait _ k e1 =>
          have : k ≠ t := fun h => he (by rw [h])
          exact .inl ⟨pc, by simp only [Sys.atT]; rw [set_other (Ne.symm this)]; exact p1, p2, p3⟩
        | tlock e1 => exact .inl (other e1 (fun e _ => by subst e; exact ⟨by simp, p3⟩))
        | t0_wait e1 => exact .inl (other e1 (fun e _ => by subst e; exact ⟨by simp, p3⟩))
        | t0 e1 => exact .inl (other e1 (fun e _ => by subst e; exact ⟨by simp, p3⟩))
        | t1_wait e1 => exact .inl (other e1 (fun e _ => by subst e; exact ⟨by simp, p3⟩))
        | t1 e1 => exact .inl (other e1 (fun e _ => by subst e; exact ⟨by simp, p3⟩))
        | tw e1 => exact .inl (other e1 (fun e _ => by subst e; exact ⟨by simp, p3⟩))
        | spur_t e1 => exact .inl (other e1 (fun e _ => by subst e; exact ⟨by simp, p3⟩))
        | twoken e1 => exact .inl (other e1 (fun e _ => by subst e; exact ⟨by simp, p3⟩))
        | @tunl _ k n e1 =>
          by_cases e : t = k
          · subst e
            right
            rw [p1] at e1; simp at e1; subst e1
            simp only [snapOf] at p3
            rw [← p3]; exact hv
          · exact .inl ⟨pc, by simp only [Sys.atT]; rw [set_other e]; exact p1, p2, p3⟩
        | _ => exact .inl ⟨pc, p1, p2, p3⟩
      · right
        intro id hid
        have := hp id hid
        cases st with
        | ret => simp [Sys.atW, this]
        | p2c _ hpo => obtain ⟨W, rfl, _⟩ := hpo.eq; exact this
        | s4 _ hpo => obtain ⟨W, rfl, _⟩ := hpo.eq; exact this
        | dec_last _ _ _ hn => obtain ⟨T, rfl, hT⟩ := hn.eq; exact this
        | _ => exact this
    · cases hc with
      | wait e1 => exact .inl ⟨_, set_self e1, by simp, rfl⟩
  rcases key.2 with ⟨pc, a, b, _⟩ | hd
  · rw [hr] at a; simp at a; exact absurd a.symm b
  · exact hd

/-- **C54** (it returns): if only one thread ever calls `thpool_wait`, it does not hang: when all threads inside the
library have come to rest (they cannot go on forever, `every_job_executed`), it has returned. -/
theorem single_waiter_returns {s u : Sys J} (h : Reach s) (hk : s.dst = .no) (hn : 0 < s.wrk.length)
    (h1 : s.wt.length ≤ 1) (hu : Steps Ev.Internal s u) (hst : Stuck u) : ∀ (t : Nat) x, u.wt[t]? = some x → NotWaiting u t := by
  have hUI := Inv.steps hu h.inv
  have hq := Stuck.quiet hUI hst
  have hz := ((every_job_executed h hk hn).2 u hu hst).2
  have hlen : u.wt.length = s.wt.length :=
    Steps.keeps (P := fun x => x.wt.length = s.wt.length) (fun e a b _ st hp => (length_step st).2.trans hp) hu rfl
  intro t x hx
  rcases hq.wt t x hx with rfl | ⟨n, rfl⟩
  · exact hx
  · have := hUI.wt.solo (by omega) t n hx
    omega

/-- **C54** (destroy waits for running jobs): when `thpool_destroy` has come to its end, no worker executes or will ever
execute a job function, every job function that was entered has returned, and every job taken from the queue has been
executed; the remaining jobs are dropped. -/
theorem destroy_waits {s : Sys J} (h : Reach s) (hd : s.dst = .freed) :
    (∀ i : Nat, ¬ Running s i) ∧ (∀ id, id ∈ s.calls.map (·.1) → id ∈ s.done) ∧
    (∀ id, id < s.dequeued.length → id ∈ s.done) ∧ (∀ e u, Step e s u → u.calls = s.calls ∧ u.dst = .freed) := by
  have hI := h.inv
  have h0 := hI.life.freed hd
  have hne : s.dst ≠ .no := by simp [hd]
  have hpc : ∀ (i : Nat) x, s.wrk[i]? = some x → x = .left ∨ x = .gone := by
    intro i x hx
    have h1 := cnt_le liv hx
    have h2 := hI.alive
    cases x with
    | left => exact .inl rfl
    | gone => exact .inr rfl
    | boot => exact absurd hx (hI.life.ready (hI.life.dready hne) i)
    | _ => simp only [liv] at h1; omega
  have hw : s.working = 0 := by
    rw [hI.working, cnt_zero]; intro i a ha
    rcases hpc i a ha with rfl | rfl <;> rfl
  refine ⟨?_, ?_, idle_done hI.jobs hI.working hw, ?_⟩
  · rintro i ⟨p, id, hp⟩
    rcases hpc i _ hp with h | h <;> simp at h
  · intro id hid
    rcases hI.jobs.fin id hid with h | ⟨i, pc, a, b⟩
    · exact h
    · rcases hpc i pc a with rfl | rfl <;> simp [run] at b
  · intro e u st
    have hsub := hI.life.dsub hne
    have hwt := hI.life.dwt hne
    cases st with
    | left e1 => exact ⟨rfl, hd⟩
    | take e1 => rcases e1 with e1 | e1 <;> (have := hpc _ _ e1; simp at this)
    | sleep e1 => rcases e1 with e1 | e1 <;> (have := hpc _ _ e1; simp at this)
    | p2c e1 => have := hpc _ _ e1; simp at this
    | s4 e1 => have := hsub _ _ e1; simp at this
    | dec_last e1 => have := hpc _ _ e1; simp at this
    | call e1 => have := hpc _ _ e1; simp at this
    | destroy e1 => simp [hd] at e1
    | d_more e1 => simp [hd] at e1
    | d_post e1 => simp [hd] at e1
    | d_free e1 => simp [hd] at e1
    | _ => exact ⟨rfl, hd⟩

/-- **C54** (destroy can always finish): once `thpool_destroy` has been called, there is always a continuation by the
pool's threads and the destroyer in which it comes to its end. -/
theorem destroy_can_finish {s : Sys J} (h : Reach s) (hd : s.dst ≠ .no) : ∃ u, Steps Ev.Own s u ∧ u.dst = .freed := by
  cases hc : s.dst with
  | no => exact absurd hc hd
  | loop => exact can_destroy h.inv hc
  | post =>
    have st := Step.d_post hc
    obtain ⟨u, h1, h2⟩ := can_destroy (h.inv.step st) rfl
    exact ⟨u, (Steps.step (ok := Ev.Own) (.refl s) (e := .dst) trivial st).trans h1, h2⟩
  | freed => exact ⟨s, .refl s, hc⟩

/-! ## concrete runs -/

/-- two workers start, `thpool_init` returns -/
def up1 : List Ev := [.wrk 0, .init]
/-- thread 0 adds a job -/
def addJob (t : Nat) : List Ev := .add t :: List.replicate 7 (.sub t)

/-- one worker, two jobs added before the worker runs, one `thpool_wait` -/
def demo : List Ev :=
  up1 ++ addJob 0 ++ addJob 0 ++ [.wait 0, .wt 0, .wt 0, .wt 0] ++ List.replicate 11 (.wrk 0)

/-- the first job is taken in FIFO order and its function called while the second is still in the queue -/
example : (execs demo (start 1 1 1)).map
    (fun s => ((s.calls, s.done, s.added), (s.dequeued, s.returned, s.len))) =
    some (([(0, 70)], [], [70, 71]), ([70], [0, 1], 1)) := by decide +kernel

def demoEnd : List Ev := demo ++ List.replicate 3 (.wrk 0) ++ List.replicate 3 (.wt 0) ++ List.replicate 16 (.wrk 0) ++ List.replicate 4 (.wt 0)

/-- the whole run: both jobs executed in order, `thpool_wait` returned, the worker sleeps -/
example : (execs demoEnd (start 1 1 1)).map
    (fun s => ((s.calls, s.done, s.len), (s.working, s.wrk, s.wt))) =
    some (([(0, 70), (1, 71)], [0, 1], 0), (0, [.asleep], [.idle])) := by decide +kernel

/-- so the hypotheses of `all_asleep_all_done` and of `wait_returns_after_done` are met by a non-trivial state -/
example : ∃ s : Sys Nat, Reach s ∧ s.wrk = [.asleep] ∧ s.done = [0, 1] ∧ s.dst = .no := by
  have h : (execs demoEnd (start 1 1 1)).isSome = true := by decide +kernel
  obtain ⟨s, hs⟩ := Option.isSome_iff_exists.1 h
  refine ⟨s, reach_of hs, ?_⟩
  have : (execs demoEnd (start 1 1 1)).map (fun s => (s.wrk, s.done, s.dst)) = some ([.asleep], [0, 1], .no) := by decide +kernel
  rw [hs] at this
  simp at this
  exact this

/-- two threads wait for one job -/
def twoWaiters : List Ev :=
  up1 ++ addJob 0 ++ [.wait 0, .wait 1, .wt 0, .wt 0, .wt 0, .wt 1, .wt 1, .wt 1] ++ List.replicate 16 (.wrk 0) ++
  [.wt 0, .wt 0, .wt 0, .wt 0]

/-- **C54** (what does not hold): with two threads in `thpool_wait`, `pthread_cond_signal` wakes only one of them; the
other sleeps although all work is finished, and no thread inside the library can move any more. -/
theorem two_waiters_one_hangs : ∃ s : Sys Nat, Reach s ∧ s.dst = .no ∧ s.wrk.length = 1 ∧ s.added = [70] ∧ s.done = [0] ∧
    s.len = 0 ∧ s.working = 0 ∧ NotWaiting s 0 ∧ s.wt[1]? = some (.tasleep [0]) ∧ Stuck s := by
  have h : (execs twoWaiters (start 1 1 2)).isSome = true := by decide +kernel
  obtain ⟨s, hs⟩ := Option.isSome_iff_exists.1 h
  have h1 : (execs twoWaiters (start 1 1 2)).map (fun s => (s.dst, s.wrk, s.sub)) =
      some (.no, [.asleep], [.idle]) := by decide +kernel
  have h2 : (execs twoWaiters (start 1 1 2)).map (fun s => (s.wt, s.added, s.done)) =
      some ([.idle, .tasleep [0]], [70], [0]) := by decide +kernel
  have h3 : (execs twoWaiters (start 1 1 2)).map (fun s => (s.len, s.working)) = some (0, 0) := by decide +kernel
  rw [hs] at h1 h2 h3
  simp only [Option.map_some, Option.some.injEq, _root_.Prod.mk.injEq] at h1 h2 h3
  obtain ⟨e1, e2, e3⟩ := h1
  obtain ⟨e4, e5, e6⟩ := h2
  obtain ⟨e7, e8⟩ := h3
  refine ⟨s, reach_of hs, e1, by simp [e2], e5, e6, e7, e8, by simp [NotWaiting, e4], by simp [e4], ?_⟩
  have W : ∀ (i : Nat) x, s.wrk[i]? = some x → x = .asleep := by
    intro i x hx; rw [e2] at hx; have := List.mem_of_getElem? hx; simpa using this
  have S : ∀ (i : Nat) x, s.sub[i]? = some x → x = .idle := by
    intro i x hx; rw [e3] at hx; have := List.mem_of_getElem? hx; simpa using this
  have T : ∀ (i : Nat) x, s.wt[i]? = some x → x = .idle ∨ x = .tasleep [0] := by
    intro i x hx; rw [e4] at hx; have := List.mem_of_getElem? hx; simpa using this
  intro e u he st
  cases st with
  | take h => rcases h with h | h <;> (have := W _ _ h; simp at this)
  | sleep h => rcases h with h | h <;> (have := W _ _ h; simp at this)
  | init => exact he
  | spur_w => exact he
  | spur_t => exact he
  | add => exact he
  | wait => exact he
  | destroy => exact he
  | d_more => exact he
  | d_post => exact he
  | d_free => exact he
  | _ =>
    first
    | (have := W _ _ (by assumption); simp at this; done)
    | (have := S _ _ (by assumption); simp at this; done)
    | (have := T _ _ (by assumption); simp at this; done)

/-- destroy while the only worker sleeps -/
def freedEarly : List Ev :=
  up1 ++ [.wrk 0, .wrk 0, .dst, .dst, .dst, .wrk 0, .wrk 0, .wrk 0, .dst]

/-- **C54** (what does not hold): `thpool_destroy` frees the pool as soon as it reads `num_threads_alive = 0`, at which
moment the last worker may still have to unlock the mutex `thcount_lock` inside the freed pool. -/
theorem destroy_frees_a_locked_mutex : ∃ s : Sys Nat, Reach s ∧ s.dst = .freed ∧ s.wrk[0]? = some .left ∧
    s.tc = some (.left 0) := by
  have h : (execs freedEarly (start 1 1 2)).isSome = true := by decide +kernel
  obtain ⟨s, hs⟩ := Option.isSome_iff_exists.1 h
  have h1 : (execs freedEarly (start 1 1 2)).map (fun s => (s.dst, s.wrk[0]?, s.tc)) =
      some (.freed, some .left, some (.left 0)) := by decide +kernel
  rw [hs] at h1
  simp only [Option.map_some, Option.some.injEq, _root_.Prod.mk.injEq] at h1
  exact ⟨s, reach_of hs, h1⟩

/-- destroy while a job runs and another is queued -/
def destroyBusy : List Ev :=
  up1 ++ addJob 0 ++ addJob 0 ++ List.replicate 11 (.wrk 0) ++ [.dst, .dst, .dst] ++ List.replicate 6 (.wrk 0) ++ [.dst]

/-- the hypotheses of `destroy_waits` are met: the running job is finished, the queued one is dropped -/
example : (execs destroyBusy (start 1 1 1)).map (fun s => ((s.dst, s.calls, s.done), (s.added, s.len))) =
    some ((.freed, [(0, 70)], [0]), ([70, 71], 1)) := by decide +kernel

end Verif.Thpool
