import Verif.ThpoolPause.Model
/-!
# C77: pausing and resuming thread pools
-/
namespace Verif.ThpoolPause

namespace Spec

/-- Steps that reset the hold: `thpool_resume` of any pool, and `thpool_init`. -/
def releases : Ev → Bool
  | .resume _ => true
  | .create => true
  | _ => false

/-- Steps by which worker `i` does something for its pool. -/
def worksAs (i : Nat) : Ev → Bool
  | .lock j _ => j == i
  | .unlock j _ => j == i
  | .work j => j == i
  | .leave j => j == i
  | _ => false

/-- Calls of `thpool_pause`. -/
def pauses : Ev → Bool
  | .pause _ _ => true
  | _ => false

/-- States that can occur. -/
def Reach (P : Pools) (s : Sys) : Prop := ∃ es, run P init es = some s

end Spec
open Spec

theorem upd_same {α : Type} (f : Nat → α) (i : Nat) (x : α) : upd f i x i = x := by simp [upd]
theorem upd_ne {α : Type} (f : Nat → α) {i j : Nat} (x : α) (h : j ≠ i) : upd f i x j = f j := by simp [upd, h]

/-- worker `i` is held -/
def Held (s : Sys) (i : Nat) : Prop := s.pc i = .set ∨ (s.flag = true ∧ (s.pc i = .loop ∨ s.pc i = .nap))

theorem held_step {P : Pools} {s s' : Sys} {e : Ev} {i : Nat} (h : Held s i) (hr : releases e = false)
    (hs : step P s e = some s') : Held s' i ∧ worksAs i e = false ∧ (∀ p, s.lock p = some i → s'.lock p = some i) ∧
      s'.alive i = s.alive i := by
  have hno : s.pc i ≠ .out := by rcases h with h | ⟨_, h | h⟩ <;> rw [h] <;> decide
  unfold Held at h ⊢
  cases e <;> simp only [step, releases, worksAs] at hs hr ⊢ <;> try (cases hr; done)
  all_goals (try split at hs) <;> (try cases hs) <;> grind [upd]

theorem held_run {P : Pools} (i : Nat) : ∀ (es : List Ev) {s s' : Sys}, Held s i → (∀ e ∈ es, releases e = false) →
    run P s es = some s' → Held s' i ∧ (∀ e ∈ es, worksAs i e = false) ∧ (∀ p, s.lock p = some i → s'.lock p = some i) ∧
      s'.alive i = s.alive i := by
  intro es
  induction es with
  | nil => intro s s' h _ e; cases e; exact ⟨h, by simp, fun _ h => h, rfl⟩
  | cons e es ih =>
    intro s s' h hr hrun
    simp only [run, Option.bind_eq_some_iff] at hrun
    obtain ⟨s1, h1, h2⟩ := hrun
    obtain ⟨a, b, c, d⟩ := held_step h (hr e (by simp)) h1
    obtain ⟨a', b', c', d'⟩ := ih a (fun e he => hr e (by simp [he])) h2
    refine ⟨a', ?_, fun p hp => c' p (c p hp), d'.trans d⟩
    intro e' he'
    rcases List.mem_cons.mp he' with rfl | he'
    · exact b
    · exact b' e' he'

/-- **C77** (held): from the moment the signal is delivered to a worker until some thread calls `thpool_resume` or
`thpool_init`, that worker does nothing for its pool, whatever happens. -/
theorem held_until_release {P : Pools} {s s1 s2 : Sys} (i : Nat) (es : List Ev) (hd : step P s (.deliver i) = some s1)
    (hr : ∀ e ∈ es, releases e = false) (hrun : run P s1 es = some s2) :
    s2.pc i ≠ .out ∧ ∀ e ∈ es, worksAs i e = false := by
  have h1 : Held s1 i := by
    simp only [step] at hd
    split at hd
    · cases hd; left; simp [upd]
    · cases hd
  obtain ⟨h2, h3, _⟩ := held_run i es h1 hr hrun
  refine ⟨?_, h3⟩
  rcases h2 with h | ⟨_, h | h⟩ <;> rw [h] <;> decide

/-- the signal of a pause has reached `i`, or is pending -/
def Hit (s : Sys) (i : Nat) : Prop := s.pend i = true ∨ Held s i

theorem hit_step {P : Pools} {s s' : Sys} {e : Ev} {i : Nat} (h : Hit s i) (hr : releases e = false)
    (hs : step P s e = some s') : Hit s' i := by
  unfold Hit Held at *
  cases e <;> simp only [step, releases] at hs hr <;> try (cases hr; done)
  all_goals (try split at hs) <;> (try cases hs) <;> grind [upd]

/-- no releasing, and the caller `c` does not start another pause: signalled and still to be signalled -/
theorem pause_run {P : Pools} (c : Nat) (l : List Nat) : ∀ (es : List Ev) {s s' : Sys},
    (∀ i ∈ l, i ∈ s.todo c ∨ Hit s i) → (∀ e ∈ es, releases e = false ∧ (∀ p, e ≠ .pause c p)) →
    run P s es = some s' → ∀ i ∈ l, i ∈ s'.todo c ∨ Hit s' i := by
  intro es
  induction es with
  | nil => intro s s' h _ e; cases e; exact h
  | cons e es ih =>
    intro s s' h hr hrun
    simp only [run, Option.bind_eq_some_iff] at hrun
    obtain ⟨s1, h1, h2⟩ := hrun
    refine ih ?_ (fun e he => hr e (by simp [he])) h2
    intro i hi
    obtain ⟨hre, hne⟩ := hr e (by simp)
    rcases h i hi with hh | hh
    · cases e with
      | pause c' p =>
        simp only [step] at h1
        split at h1
        · cases h1
          have : c ≠ c' := by rintro rfl; exact hne p rfl
          left; simp [upd, this, hh]
        · cases h1
      | kill c' =>
        simp only [step] at h1
        split at h1
        · cases h1
        · next j r hj =>
          cases h1
          by_cases hc : c = c'
          · subst hc
            rw [hj] at hh
            rcases List.mem_cons.mp hh with rfl | hh
            · right; left; simp [upd]
            · left; simp [upd, hh]
          · left; simp [upd, hc, hh]
      | resume p => simp [releases] at hre
      | create => simp [releases] at hre
      | _ =>
        simp only [step] at h1
        first
          | (split at h1 <;> cases h1 <;> exact Or.inl hh)
    · exact Or.inr (hit_step hh hre h1)

/-- **C77** (pause): when `thpool_pause` of pool `p` returns (the caller has signalled everybody), and as long as nobody
releases, every worker of the pool either has the signal still pending or is inside the handler and does nothing for the
pool any more. -/
theorem pause_stops_all {P : Pools} {s s1 s2 : Sys} (c p : Nat) (es : List Ev) (hp : step P s (.pause c p) = some s1)
    (hes : ∀ e ∈ es, releases e = false ∧ (∀ q, e ≠ .pause c q)) (hrun : run P s1 es = some s2) (hret : s2.todo c = []) :
    ∀ i ∈ P p, s2.pend i = true ∨ (s2.pc i ≠ .out ∧
      ∀ es' s3, (∀ e ∈ es', releases e = false) → run P s2 es' = some s3 → ∀ e ∈ es', worksAs i e = false) := by
  intro i hi
  have h0 : ∀ j ∈ P p, j ∈ s1.todo c ∨ Hit s1 j := by
    simp only [step] at hp
    split at hp
    · cases hp; intro j hj; left; simp [upd, hj]
    · cases hp
  rcases pause_run c (P p) es h0 hes hrun i hi with h | h
  · rw [hret] at h; simp at h
  · rcases h with h | h
    · exact .inl h
    · refine .inr ⟨?_, fun es' s3 hr hrun' => (held_run i es' h hr hrun').2.1⟩
      rcases h with h | ⟨_, h | h⟩ <;> rw [h] <;> decide

/-- all signals have been delivered and every handler has set the flag -/
def Quiet (s : Sys) : Prop := (∀ c, s.todo c = []) ∧ (∀ i, s.pend i = false) ∧ ∀ i, s.pc i ≠ .set

theorem quiet_step {P : Pools} {s s' : Sys} {e : Ev} (h : Quiet s) (hf : s.flag = false) (hp : pauses e = false)
    (hs : step P s e = some s') : Quiet s' ∧ s'.flag = false := by
  unfold Quiet at *
  obtain ⟨h1, h2, h3⟩ := h
  cases e <;> simp only [step, pauses] at hs hp <;> try (cases hp; done)
  all_goals (try split at hs) <;> (try cases hs) <;> grind [upd]

theorem quiet_run {P : Pools} : ∀ (es : List Ev) {s s' : Sys}, Quiet s → s.flag = false → (∀ e ∈ es, pauses e = false) →
    run P s es = some s' → Quiet s' ∧ s'.flag = false := by
  intro es
  induction es with
  | nil => intro s s' h hf _ e; cases e; exact ⟨h, hf⟩
  | cons e es ih =>
    intro s s' h hf hp hrun
    simp only [run, Option.bind_eq_some_iff] at hrun
    obtain ⟨s1, h1, h2⟩ := hrun
    obtain ⟨a, b⟩ := quiet_step h hf (hp e (by simp)) h1
    exact ih a b (fun e he => hp e (by simp [he])) h2

/-- **C77** (resume, when no pause is still in flight): if `thpool_resume` is called when every signal sent has been delivered
and every handler has reached its loop, then at every later moment before the next `thpool_pause` each worker is at work or
gets back to work by at most two steps of its own; no other step can prevent it. -/
theorem resume_frees_all {P : Pools} {s s1 s2 : Sys} (q : Nat) (hq : Quiet s) (hr : step P s (.resume q) = some s1)
    (es : List Ev) (hp : ∀ e ∈ es, pauses e = false) (hrun : run P s1 es = some s2) (i : Nat) :
    s2.pc i = .out ∨ (∃ s3, run P s2 [.test i] = some s3 ∧ s3.pc i = .out) ∨
      ∃ s3, run P s2 [.wake i, .test i] = some s3 ∧ s3.pc i = .out := by
  have h1 : Quiet s1 ∧ s1.flag = false := by
    simp only [step] at hr
    cases hr
    exact ⟨hq, rfl⟩
  obtain ⟨⟨_, _, h3⟩, hf⟩ := quiet_run es h1.1 h1.2 hp hrun
  cases hpc : s2.pc i with
  | out => exact .inl rfl
  | set => exact absurd hpc (h3 i)
  | loop =>
    refine .inr (.inl ?_)
    simp [run, step, hpc, hf, upd]
  | nap =>
    refine .inr (.inr ?_)
    simp [run, step, hpc, hf, upd]

/-- FINDING: `thpool_resume` soon after `thpool_pause` can be lost for good: in any state where a worker's signal is still
pending, the worker can take it right after the resume; it then sets the flag again and does nothing until somebody calls
`thpool_resume` once more. -/
theorem resume_lost {P : Pools} {s : Sys} (i q : Nat) (hp : s.pend i = true) (ho : s.pc i = .out) :
    ∃ s', run P s [.resume q, .deliver i, .set i] = some s' ∧ s'.flag = true ∧ s'.pc i = .loop ∧ s'.pend i = false ∧
      ∀ es s2, (∀ e ∈ es, releases e = false) → run P s' es = some s2 → s2.pc i ≠ .out ∧ ∀ e ∈ es, worksAs i e = false := by
  refine ⟨{ s with flag := true, pend := upd s.pend i false, pc := upd (upd s.pc i .set) i .loop },
    by simp [run, step, hp, ho, upd], rfl, by simp [upd], by simp [upd], ?_⟩
  intro es s2 hr hrun
  have hh : Held { s with flag := true, pend := upd s.pend i false, pc := upd (upd s.pc i .set) i .loop } i :=
    .inr ⟨rfl, .inl (by simp [upd])⟩
  obtain ⟨h2, h3, _⟩ := held_run i es hh hr hrun
  refine ⟨?_, h3⟩
  rcases h2 with h | ⟨_, h | h⟩ <;> rw [h] <;> decide

/-- FINDING: resuming any pool, or creating one, ends the pause of all pools. -/
theorem release_is_global {P : Pools} {s : Sys} (i : Nat) (h : s.pc i = .loop) (e : Ev) (he : releases e = true) :
    ∃ s', run P s [e, .test i] = some s' ∧ s'.pc i = .out := by
  cases e <;> simp only [releases] at he <;> try (cases he; done)
  all_goals simp [run, step, h, upd]

/-- FINDING: a worker can be stopped while it holds the queue's mutex; then nobody can take that mutex (so
`thpool_add_work` blocks) until a release. -/
theorem pause_holds_mutex {P : Pools} {s s1 s2 : Sys} (i p : Nat) (hl : s.lock p = some i)
    (hd : step P s (.deliver i) = some s1) (es : List Ev) (hr : ∀ e ∈ es, releases e = false)
    (hrun : run P s1 es = some s2) : s2.lock p = some i ∧ ∀ j, step P s2 (.lock j p) = none := by
  have h1 : Held s1 i ∧ s1.lock p = some i := by
    simp only [step] at hd
    split at hd
    · cases hd; exact ⟨.inl (by simp [upd]), hl⟩
    · cases hd
  have h2 := (held_run i es h1.1 hr hrun).2.2.1 p h1.2
  refine ⟨h2, fun j => ?_⟩
  simp [step, h2]

/-- FINDING: `thpool_destroy` of a pool with a held worker does not return before a release. -/
theorem destroy_paused_hangs {P : Pools} {s s1 s2 : Sys} (i p : Nat) (hi : i ∈ P p) (ha : s.alive i = true)
    (hd : step P s (.deliver i) = some s1) (es : List Ev) (hr : ∀ e ∈ es, releases e = false)
    (hrun : run P s1 es = some s2) : ¬ destroyReturns P s2 p := by
  have h1 : Held s1 i ∧ s1.alive i = true := by
    simp only [step] at hd
    split at hd
    · cases hd; exact ⟨.inl (by simp [upd]), ha⟩
    · cases hd
  intro h
  have h2 := (held_run i es h1.1 hr hrun).2.2.2
  rw [h1.2, h i hi] at h2
  cases h2

/-- **C77** (one pool at a time): `thpool_pause` of a pool signals only that pool's workers: a worker that is in no pool being
paused gets no signal. -/
theorem pause_precise {P : Pools} (i : Nat) : ∀ (es : List Ev) {s s' : Sys},
    (∀ c, i ∉ s.todo c) → s.pend i = false → s.pc i = .out → (∀ c p, .pause c p ∈ es → i ∉ P p) →
    run P s es = some s' → s'.pend i = false ∧ s'.pc i = .out := by
  intro es
  induction es with
  | nil => intro s s' _ hp ho _ e; cases e; exact ⟨hp, ho⟩
  | cons e es ih =>
    intro s s' ht hp ho hn hrun
    simp only [run, Option.bind_eq_some_iff] at hrun
    obtain ⟨s1, h1, h2⟩ := hrun
    have key : (∀ c, i ∉ s1.todo c) ∧ s1.pend i = false ∧ s1.pc i = .out := by
      cases e with
      | pause c p =>
        have := hn c p (by simp)
        simp only [step] at h1
        split at h1
        · cases h1
          refine ⟨?_, hp, ho⟩
          intro c'
          by_cases hc : c' = c
          · subst hc; simp [upd, this]
          · simp [upd, hc, ht c']
        · cases h1
      | kill c =>
        simp only [step] at h1
        split at h1
        · cases h1
        · next j r hj =>
          cases h1
          have hij : i ≠ j := by rintro rfl; exact ht c (by simp [hj])
          refine ⟨?_, by simp [upd, hij, hp], ho⟩
          intro c'
          have := ht c'
          by_cases hc : c' = c
          · subst hc
            rw [hj] at this
            simp only [upd, if_true]
            exact fun hh => this (List.mem_cons_of_mem _ hh)
          · simp [upd, hc, this]
      | _ =>
        simp only [step] at h1
        first
          | (cases h1; exact ⟨ht, hp, ho⟩)
          | (split at h1 <;> cases h1 <;> refine ⟨ht, ?_, ?_⟩ <;> grind [upd])
    exact ih key.1 key.2.1 key.2.2 (fun c p hm => hn c p (by simp [hm])) h2

/-! ### Examples -/

/-- two pools with workers 0, 1 and 2 -/
def exP : Pools := fun p => if p = 0 then [0, 1] else if p = 1 then [2] else []

/-- pausing pool 0: both signals delivered -/
def exPause : List Ev := [.work 0, .lock 1 0, .pause 7 0, .kill 7, .deliver 0, .set 0, .work 1, .kill 7, .test 0, .deliver 1, .set 1]

example : ∃ s, run exP init exPause = some s ∧ s.todo 7 = [] ∧ s.pc 0 = .nap ∧ s.pc 1 = .loop ∧ s.pc 2 = .out ∧
    s.lock 0 = some 1 ∧ Quiet s := by
  refine ⟨_, rfl, rfl, rfl, rfl, rfl, rfl, ?_, ?_, ?_⟩
  · intro c; show upd _ _ _ _ = _; simp only [upd]; split <;> (try split) <;> (try split) <;> rfl
  · intro i; show upd _ _ _ _ = _; simp only [upd]; split <;> (try split) <;> (try split) <;> (try split) <;> rfl
  · intro i; show upd _ _ _ _ ≠ _
    simp only [upd]
    split
    · decide
    · split
      · decide
      · show Pc.out ≠ Pc.set; decide

/-- resuming pool 1 ends the pause of pool 0 -/
example : (run exP init (exPause ++ [.resume 1, .test 1, .unlock 1 0, .wake 0, .test 0, .work 0])).isSome = true := by
  decide +kernel
/-- without it neither can work -/
example : run exP init (exPause ++ [.work 0]) = none ∧ run exP init (exPause ++ [.unlock 1 0]) = none ∧
    run exP init (exPause ++ [.lock 2 0]) = none := ⟨rfl, rfl, rfl⟩
/-- hypotheses of `resume_lost` -/
example : ∃ s, run exP init [.pause 7 0, .kill 7, .kill 7] = some s ∧ s.pend 0 = true ∧ s.pc 0 = .out :=
  ⟨_, rfl, rfl, rfl⟩

end Verif.ThpoolPause
