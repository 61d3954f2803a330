import Verif.Rwlock.Props
import Verif.Common.Fair
/-!
# C56: a writer that waits gets the lock, in every fair infinite execution; so does a reader once writers stop coming

The steps of `Model.lean` with their names.  Fairness: a thread inside a call that can move again and again moves at
some time (strong fairness: a waiting writer can move only in the moments when nobody is inside), and a holder calls
`unlock` at some time (weak fairness).  New calls of `rdlock` and `wrlock` may arrive all the time.
-/
namespace Verif.Rwlock
open Verif.Fair (Exec Enabled)

/-- what happens -/
inductive Act where
  /-- a step of the call thread `t` is in -/
  | run (t : Nat)
  | rdlock (t : Nat)
  | wrlock (t : Nat)
  /-- a reader calls `unlock` -/
  | rdunlock (t : Nat)
  /-- the writer calls `unlock` -/
  | wrunlock (t : Nat)
  deriving DecidableEq

/-- the steps of `Step N`, labelled -/
inductive AStep (N : Nat) : Act → Sys → Sys → Prop where
  | run {s s' : Sys} (t : Nat) (ht : t < N) (h : run s t = some s') : AStep N (.run t) s s'
  | rdlock {s : Sys} (t : Nat) (ht : t < N) (h : s.th t = .idle) : AStep N (.rdlock t) s (s.go t .rwait)
  | wrlock {s : Sys} (t : Nat) (ht : t < N) (h : s.th t = .idle) : AStep N (.wrlock t) s (s.go t .wadd)
  | rdunlock {s : Sys} (t : Nat) (ht : t < N) (h : s.th t = .rheld) : AStep N (.rdunlock t) s (s.go t .runl)
  | wrunlock {s : Sys} (t : Nat) (ht : t < N) (h : s.th t = .wheld) : AStep N (.wrunlock t) s (s.go t .wunl)

theorem AStep.step {N : Nat} {a : Act} {s s' : Sys} (h : AStep N a s s') : Step N s s' := by
  cases h with
  | run t ht h => exact .run t ht h
  | rdlock t ht h => exact .rdlock t ht h
  | wrlock t ht h => exact .wrlock t ht h
  | rdunlock t ht h => exact .rdunlock t ht h
  | wrunlock t ht h => exact .wrunlock t ht h

theorem step_iff {N : Nat} {s s' : Sys} : Step N s s' ↔ ∃ a, AStep N a s s' := by
  constructor
  · intro h
    cases h with
    | run t ht h => exact ⟨_, .run t ht h⟩
    | rdlock t ht h => exact ⟨_, .rdlock t ht h⟩
    | wrlock t ht h => exact ⟨_, .wrlock t ht h⟩
    | rdunlock t ht h => exact ⟨_, .rdunlock t ht h⟩
    | wrunlock t ht h => exact ⟨_, .wrunlock t ht h⟩
  · rintro ⟨a, h⟩; exact h.step

/-- every thread that can go on with its call again and again goes on, and every holder calls `unlock` -/
def FairRun {N : Nat} (x : Exec (AStep N)) : Prop :=
  ∀ t, x.Strong (.run t) ∧ x.Weak (.rdunlock t) ∧ x.Weak (.wrunlock t)

/-- what a step does to the threads: one thread moves, from one place to the next -/
theorem AStep.moves {N : Nat} {a : Act} {s s' : Sys} (i : Inv N s) (h : AStep N a s s') :
    ∃ t c, t < N ∧ s'.th = (fun k => if k = t then c else s.th k) ∧
      ((a = .run t ∧ (s.th t = .rwait ∧ c = .rchk ∧ s.rd = true ∨ s.th t = .rchk ∧ c = .rheld ∨
          s.th t = .wadd ∧ c = .wwait ∨ s.th t = .wwait ∧ c = .wchk ∧ s.wr = true ∨
          s.th t = .wchk ∧ c = .wheld ∨ s.th t = .runl ∧ c = .idle ∨ s.th t = .wunl ∧ c = .idle)) ∨
       (a = .rdlock t ∧ s.th t = .idle ∧ c = .rwait) ∨ (a = .wrlock t ∧ s.th t = .idle ∧ c = .wadd) ∨
       (a = .rdunlock t ∧ s.th t = .rheld ∧ c = .runl) ∨ (a = .wrunlock t ∧ s.th t = .wheld ∧ c = .wunl)) := by
  cases h with
  | run t ht h =>
    have hi := inv_step i (.run t ht h)
    simp only [Rwlock.run] at h
    cases e : s.th t with
    | idle => rw [e] at h; simp at h
    | rheld => rw [e] at h; simp at h
    | wheld => rw [e] at h; simp at h
    | failed => rw [e] at h; simp at h
    | rwait =>
      rw [e] at h
      simp only at h
      split at h
      · next hr =>
        simp only [Option.some.injEq] at h
        subst h
        exact ⟨t, .rchk, ht, rfl, by simp [e, hr]⟩
      · simp at h
    | rchk =>
      rw [e] at h
      simp only at h
      split at h
      · simp only [Option.some.injEq] at h
        subst h
        exact ⟨t, .rheld, ht, rfl, by simp [e]⟩
      · simp only [Option.some.injEq] at h
        subst h
        exact absurd (by simp [Sys.go]) (hi.nofail t)
    | wadd =>
      rw [e] at h
      simp only [Option.some.injEq] at h
      subst h
      exact ⟨t, .wwait, ht, rfl, by simp [e]⟩
    | wwait =>
      rw [e] at h
      simp only at h
      split at h
      · next hr =>
        simp only [Option.some.injEq] at h
        subst h
        exact ⟨t, .wchk, ht, rfl, by simp [e, hr]⟩
      · simp at h
    | wchk =>
      rw [e] at h
      simp only at h
      split at h
      · simp only [Option.some.injEq] at h
        subst h
        exact ⟨t, .wheld, ht, rfl, by simp [e]⟩
      · simp only [Option.some.injEq] at h
        subst h
        exact absurd (by simp [Sys.go]) (hi.nofail t)
    | runl =>
      rw [e] at h
      simp only [Option.some.injEq] at h
      subst h
      exact ⟨t, .idle, ht, rfl, by simp [e]⟩
    | wunl =>
      rw [e] at h
      simp only [Option.some.injEq] at h
      subst h
      exact ⟨t, .idle, ht, rfl, by simp [e]⟩
  | rdlock t ht h => exact ⟨t, .rwait, ht, rfl, by simp [h]⟩
  | wrlock t ht h => exact ⟨t, .wadd, ht, rfl, by simp [h]⟩
  | rdunlock t ht h => exact ⟨t, .runl, ht, rfl, by simp [h]⟩
  | wrunlock t ht h => exact ⟨t, .wunl, ht, rfl, by simp [h]⟩

/-- the one thing a thread that stands here and need not wait for others does next -/
def next (t : Nat) : Pc → Option Act
  | .rchk | .wchk | .runl | .wunl | .wadd => some (.run t)
  | .rheld => some (.rdunlock t)
  | .wheld => some (.wrunlock t)
  | _ => none

/-- where it gets -/
def after : Pc → Pc
  | .rchk => .rheld | .wchk => .wheld | .runl => .idle | .wunl => .idle | .wadd => .wwait
  | .rheld => .runl | .wheld => .wunl | c => c

section
variable {N : Nat} {x : Exec (AStep N)}

theorem run_reach (h0 : Reach N (x.st 0)) (k : Nat) : Reach N (x.st k) :=
  Exec.always (n := 0) (P := Reach N) h0 (fun k e _ hl h => h.step (x.ok k e hl).step) k (Nat.zero_le _)

theorem run_inv (h0 : Reach N (x.st 0)) (k : Nat) : Inv N (x.st k) := inv_reach (run_reach h0 k)

theorem next_enabled {s : Sys} (i : Inv N s) {t : Nat} {a : Act} (h : next t (s.th t) = some a) :
    Enabled (AStep N) a s := by
  have ht : t < N := i.lt t (fun e => by rw [e] at h; simp [next] at h)
  cases e : s.th t <;> rw [e] at h <;> simp only [next, Option.some.injEq, reduceCtorEq] at h <;> subst h
  · exact if hw : s.writers = 0 then ⟨_, .run t ht (by simp [Rwlock.run, e, hw]; rfl)⟩
      else ⟨_, .run t ht (by simp [Rwlock.run, e, hw]; rfl)⟩
  · exact ⟨_, .rdunlock t ht e⟩
  · exact ⟨_, .run t ht (by simp only [Rwlock.run, e]; rfl)⟩
  · exact ⟨_, .run t ht (by simp only [Rwlock.run, e]; rfl)⟩
  · exact if hw : s.writers = 1 then ⟨_, .run t ht (by simp [Rwlock.run, e, hw]; rfl)⟩
      else ⟨_, .run t ht (by simp [Rwlock.run, e, hw]; rfl)⟩
  · exact ⟨_, .wrunlock t ht e⟩
  · exact ⟨_, .run t ht (by simp only [Rwlock.run, e]; rfl)⟩

/-- a thread that need not wait for others stays where it is or does its next thing -/
theorem next_step {a b : Act} {s s' : Sys} (i : Inv N s) (h : AStep N b s s') {t : Nat}
    (hn : next t (s.th t) = some a) : b = a ∧ s'.th t = after (s.th t) ∨ b ≠ a ∧ s'.th t = s.th t := by
  obtain ⟨u, c, hu, e, hm⟩ := h.moves i
  rw [e]
  by_cases htu : t = u
  · subst htu
    simp only [if_true]
    left
    rcases hm with ⟨rfl, hm⟩ | ⟨rfl, h1, rfl⟩ | ⟨rfl, h1, rfl⟩ | ⟨rfl, h1, rfl⟩ | ⟨rfl, h1, rfl⟩
    · rcases hm with ⟨h1, rfl, _⟩ | ⟨h1, rfl⟩ | ⟨h1, rfl⟩ | ⟨h1, rfl, _⟩ | ⟨h1, rfl⟩ | ⟨h1, rfl⟩ | ⟨h1, rfl⟩ <;>
        rw [h1] at hn ⊢ <;> simp [next, after] at hn ⊢ <;> exact hn
    all_goals (rw [h1] at hn ⊢; simp [next, after] at hn ⊢ <;> exact hn)
  · right
    simp only [if_neg htu, and_true]
    rintro rfl
    rcases hm with ⟨rfl, hm⟩ | ⟨rfl, h1, rfl⟩ | ⟨rfl, h1, rfl⟩ | ⟨rfl, h1, rfl⟩ | ⟨rfl, h1, rfl⟩ <;>
      (cases ht : s.th t <;> rw [ht] at hn <;> simp [next] at hn <;> exact htu hn)

theorem FairRun.weak (hf : FairRun x) {t : Nat} {c : Pc} {a : Act} (h : next t c = some a) : x.Weak a := by
  obtain ⟨h1, h2, h3⟩ := hf t
  cases c <;> simp only [next, Option.some.injEq, reduceCtorEq] at h <;> subst h <;>
    first | exact h1.weak | exact h2 | exact h3

/-- such a thread does go on -/
theorem goes_on (h0 : Reach N (x.st 0)) (hf : FairRun x) {n t : Nat} {a : Act} (h : next t ((x.st n).th t) = some a) :
    ∃ k, n ≤ k ∧ (x.st k).th t = (x.st n).th t ∧ (x.st (k + 1)).th t = after ((x.st n).th t) := by
  refine Classical.byContradiction fun hc => ?_
  have stay : ∀ k, n ≤ k → (x.st k).th t = (x.st n).th t := by
    refine Exec.always (P := fun s : Sys => s.th t = (x.st n).th t) rfl ?_
    intro k e hk hl hP
    rcases next_step (run_inv h0 k) (x.ok k e hl) (t := t) (a := a) (by rw [hP]; exact h) with ⟨_, h2⟩ | ⟨_, h2⟩
    · exact absurd ⟨k, hk, hP, by rw [h2, hP]⟩ hc
    · rw [h2, hP]
  obtain ⟨k, hk, hl⟩ := hf.weak h n (fun k hk => next_enabled (run_inv h0 k) (by rw [stay k hk]; exact h))
  rcases next_step (run_inv h0 k) (x.ok k a hl) (t := t) (a := a) (by rw [stay k hk]; exact h) with ⟨_, h2⟩ | ⟨h2, _⟩
  · exact hc ⟨k, hk, stay k hk, by rw [h2, stay k hk]⟩
  · exact h2 rfl

/-- whoever is inside leaves -/
theorem leaves (h0 : Reach N (x.st 0)) (hf : FairRun x) {n t : Nat} (h : isIn ((x.st n).th t) = true) :
    ∃ k, n ≤ k ∧ isIn ((x.st k).th t) = true ∧ (x.st (k + 1)).th t = .idle := by
  have unl : ∀ n, ((x.st n).th t = .runl ∨ (x.st n).th t = .wunl) →
      ∃ k, n ≤ k ∧ isIn ((x.st k).th t) = true ∧ (x.st (k + 1)).th t = .idle := by
    intro n h
    obtain ⟨k, hk, h1, h2⟩ := goes_on h0 hf (n := n) (t := t) (a := .run t) (by rcases h with h | h <;> rw [h] <;> rfl)
    refine ⟨k, hk, ?_, ?_⟩ <;> rcases h with h | h <;> rw [h] at h1 h2
    · rw [h1]; rfl
    · rw [h1]; rfl
    · exact h2
    · exact h2
  have held : ∀ n, ((x.st n).th t = .rheld ∨ (x.st n).th t = .wheld) →
      ∃ k, n ≤ k ∧ isIn ((x.st k).th t) = true ∧ (x.st (k + 1)).th t = .idle := by
    intro n h
    rcases h with h | h
    · obtain ⟨k, hk, _, h2⟩ := goes_on h0 hf (n := n) (t := t) (a := .rdunlock t) (by rw [h]; rfl)
      obtain ⟨j, hj, r⟩ := unl (k + 1) (by left; rw [h2, h]; rfl)
      exact ⟨j, by omega, r⟩
    · obtain ⟨k, hk, _, h2⟩ := goes_on h0 hf (n := n) (t := t) (a := .wrunlock t) (by rw [h]; rfl)
      obtain ⟨j, hj, r⟩ := unl (k + 1) (by right; rw [h2, h]; rfl)
      exact ⟨j, by omega, r⟩
  cases e : (x.st n).th t <;> rw [e] at h <;> simp [isIn] at h
  · obtain ⟨k, hk, _, h2⟩ := goes_on h0 hf (n := n) (t := t) (a := .run t) (by rw [e]; rfl)
    obtain ⟨j, hj, r⟩ := held (k + 1) (by left; rw [h2, e]; rfl)
    exact ⟨j, by omega, r⟩
  · exact held n (.inl e)
  · exact unl n (.inl e)
  · obtain ⟨k, hk, _, h2⟩ := goes_on h0 hf (n := n) (t := t) (a := .run t) (by rw [e]; rfl)
    obtain ⟨j, hj, r⟩ := held (k + 1) (by right; rw [h2, e]; rfl)
    exact ⟨j, by omega, r⟩
  · exact held n (.inr e)
  · exact unl n (.inr e)

/-- a step into the inside needs an open lock -/
theorem enters {a : Act} {s s' : Sys} (i : Inv N s) (h : AStep N a s s') (hr : s.rd = false) (hw : s.wr = false) (t : Nat) :
    isIn (s'.th t) = true → isIn (s.th t) = true := by
  obtain ⟨u, c, hu, e, hm⟩ := h.moves i
  rw [e]
  by_cases htu : t = u
  · subst htu
    simp only [if_true]
    rcases hm with ⟨rfl, hm⟩ | ⟨rfl, h1, rfl⟩ | ⟨rfl, h1, rfl⟩ | ⟨rfl, h1, rfl⟩ | ⟨rfl, h1, rfl⟩
    · rcases hm with ⟨h1, rfl, h3⟩ | ⟨h1, rfl⟩ | ⟨h1, rfl⟩ | ⟨h1, rfl, h3⟩ | ⟨h1, rfl⟩ | ⟨h1, rfl⟩ | ⟨h1, rfl⟩ <;>
        simp_all [isIn]
    all_goals simp_all [isIn]
  · simp [if_neg htu]

theorem num_mono {P : Pc → Bool} {f g : Nat → Pc} (h : ∀ t, P (g t) = true → P (f t) = true) :
    num N P g ≤ num N P f := by
  unfold num
  exact List.countP_mono_left (fun t _ ht => h t ht)

theorem num_lt {P : Pc → Bool} {f g : Nat → Pc} (h : ∀ t, P (g t) = true → P (f t) = true) {u : Nat} (hu : u < N)
    (h1 : P (f u) = true) (h2 : P (g u) = false) : num N P g < num N P f := by
  have e1 := num_upd P f hu (g u)
  have e2 : num N P g ≤ num N P (fun k => if k = u then g u else f k) := num_mono (fun t ht => by
    by_cases e : t = u
    · simp only [e, if_true]; rw [e] at ht; exact ht
    · simp only [if_neg e]; exact h t ht)
  simp only [ind, h1, h2] at e1
  simp at e1
  omega

/-- while a writer waits, again and again nobody is inside -/
theorem emptied (h0 : Reach N (x.st 0)) (hf : FairRun x) {n w : Nat} (hw : ∀ k, n ≤ k → (x.st k).th w = .wwait) (m : Nat) :
    ∃ k, m ≤ k ∧ (x.st k).wr = true := by
  refine Classical.byContradiction fun hc => ?_
  have hwr : ∀ k, m ≤ k → (x.st k).wr = false := fun k hk => by
    cases e : (x.st k).wr with
    | false => rfl
    | true => exact absurd ⟨k, hk, e⟩ hc
  have hrd : ∀ k, n ≤ k → (x.st k).rd = false := fun k hk => by
    have i := run_inv h0 k
    cases e : (x.st k).rd with
    | false => rfl
    | true =>
      have h1 := (i.rd.1 e).1
      have h2 : 0 < (x.st k).ww := by
        rw [i.ww]; exact num_pos (i.lt w (by rw [hw k hk]; simp)) (by rw [hw k hk]; rfl)
      omega
  have keep : ∀ k, max n m ≤ k → ∀ t, isIn ((x.st (k + 1)).th t) = true → isIn ((x.st k).th t) = true := by
    intro k hk t ht
    cases hl : x.lab k with
    | none => rw [x.idle k hl] at ht; exact ht
    | some e => exact enters (run_inv h0 k) (x.ok k e hl) (hrd k (by omega)) (hwr k (by omega)) t ht
  obtain ⟨p, hp, hset⟩ := Fair.settles (fun k => num N isIn (x.st k).th) (max n m) (fun k hk => num_mono (keep k hk))
  have i := run_inv h0 p
  have hpos : 0 < num N isIn (x.st p).th := by
    rw [← i.readers]
    have : ¬ (x.st p).readers = 0 := fun e => by
      have := i.wr.2 e; rw [hwr p (by omega)] at this; simp at this
    omega
  obtain ⟨t, ht, hin⟩ := num_ge hpos
  obtain ⟨k, hk, h1, h2⟩ := leaves h0 hf hin
  have := num_lt (keep k (by omega)) ht h1 (by rw [h2]; rfl)
  have e1 := hset k (by omega)
  have e2 := hset (k + 1) (by omega)
  omega

/-- **C56** (no writer starves): in every fair infinite execution, whatever the other threads do, a thread that has
called `wrlock` gets the lock. -/
theorem writer_gets_lock (h0 : Reach N (x.st 0)) (hf : FairRun x) {n w : Nat}
    (hw : (x.st n).th w = .wadd ∨ (x.st n).th w = .wwait ∨ (x.st n).th w = .wchk) :
    ∃ k, n ≤ k ∧ HoldsWrite (x.st k) w := by
  have chk : ∀ n, (x.st n).th w = .wchk → ∃ k, n ≤ k ∧ HoldsWrite (x.st k) w := by
    intro n h
    obtain ⟨k, hk, _, h2⟩ := goes_on h0 hf (n := n) (t := w) (a := .run w) (by rw [h]; rfl)
    exact ⟨k + 1, by omega, by rw [h] at h2; exact h2⟩
  have wait : ∀ n, (x.st n).th w = .wwait → ∃ k, n ≤ k ∧ HoldsWrite (x.st k) w := by
    intro n h
    by_cases hc : ∃ k, n ≤ k ∧ (x.st k).th w = .wchk
    · obtain ⟨k, hk, h1⟩ := hc
      obtain ⟨j, hj, r⟩ := chk k h1
      exact ⟨j, by omega, r⟩
    · exfalso
      have stay1 : ∀ k, n ≤ k → ∀ e, x.lab k = some e → (x.st k).th w = .wwait →
          (x.st (k + 1)).th w = .wwait ∨ (x.st (k + 1)).th w = .wchk := by
        intro k hk e hl hP
        obtain ⟨u, c, hu, ee, hm⟩ := (x.ok k e hl).moves (run_inv h0 k)
        rw [ee]
        by_cases htu : w = u
        · subst htu
          simp only [if_true]
          rcases hm with ⟨_, hm⟩ | ⟨_, h1, _⟩ | ⟨_, h1, _⟩ | ⟨_, h1, _⟩ | ⟨_, h1, _⟩
          · rcases hm with ⟨h1, _⟩ | ⟨h1, _⟩ | ⟨h1, _⟩ | ⟨h1, rfl, _⟩ | ⟨h1, _⟩ | ⟨h1, _⟩ | ⟨h1, _⟩ <;>
              first | exact .inr rfl | (rw [hP] at h1; simp at h1)
          all_goals (rw [hP] at h1; simp at h1)
        · simp only [if_neg htu]; exact .inl hP
      have stay : ∀ k, n ≤ k → (x.st k).th w = .wwait := by
        refine Exec.always (P := fun s : Sys => s.th w = Pc.wwait) h ?_
        intro k e hk hl hP
        rcases stay1 k hk e hl hP with h1 | h1
        · exact h1
        · exact absurd ⟨k + 1, by omega, h1⟩ hc
      obtain ⟨k, hk, hl⟩ := (hf w).1 (fun m => by
        obtain ⟨k, hk, hwr⟩ := emptied h0 hf stay (max n m)
        obtain ⟨v, e⟩ : ∃ v, run (x.st k) w = some v :=
          ⟨_, by simp only [Rwlock.run, stay k (by omega), hwr, if_true]; rfl⟩
        exact ⟨k, by omega, _, .run w ((run_inv h0 k).lt w (by rw [stay k (by omega)]; simp)) e⟩) n
      obtain ⟨u, c, hu, ee, hm⟩ := (x.ok k _ hl).moves (run_inv h0 k)
      have hs := stay k hk
      rcases hm with ⟨he, hm⟩ | ⟨he, _⟩ | ⟨he, _⟩ | ⟨he, _⟩ | ⟨he, _⟩
      · simp only [Act.run.injEq] at he
        subst he
        have hs' := stay (k + 1) (by omega)
        rw [ee] at hs'
        simp only [if_true] at hs'
        rcases hm with ⟨h1, _⟩ | ⟨h1, _⟩ | ⟨h1, _⟩ | ⟨h1, h2, _⟩ | ⟨h1, _⟩ | ⟨h1, _⟩ | ⟨h1, _⟩ <;>
          first | (rw [hs] at h1; simp at h1; done) | (rw [hs'] at h2; simp at h2)
      all_goals simp at he
  rcases hw with h | h | h
  · obtain ⟨k, hk, _, h2⟩ := goes_on h0 hf (n := n) (t := w) (a := .run w) (by rw [h]; rfl)
    obtain ⟨j, hj, r⟩ := wait (k + 1) (by rw [h] at h2; exact h2)
    exact ⟨j, by omega, r⟩
  · exact wait n h
  · exact chk n h

/-- somewhere between the call of `wrlock` and the end of `unlock` -/
def isWriter : Pc → Bool
  | .wadd | .wwait | .wchk | .wheld | .wunl => true
  | _ => false

/-- only a call of `wrlock` makes a thread a writer -/
theorem becomes_writer {a : Act} {s s' : Sys} (i : Inv N s) (h : AStep N a s s') (ha : ∀ t, a ≠ .wrlock t) (t : Nat) :
    isWriter (s'.th t) = true → isWriter (s.th t) = true := by
  obtain ⟨u, c, hu, e, hm⟩ := h.moves i
  rw [e]
  by_cases htu : t = u
  · subst htu
    simp only [if_true]
    rcases hm with ⟨rfl, hm⟩ | ⟨rfl, h1, rfl⟩ | ⟨rfl, h1, rfl⟩ | ⟨rfl, h1, rfl⟩ | ⟨rfl, h1, rfl⟩
    · rcases hm with ⟨h1, rfl, h3⟩ | ⟨h1, rfl⟩ | ⟨h1, rfl⟩ | ⟨h1, rfl, h3⟩ | ⟨h1, rfl⟩ | ⟨h1, rfl⟩ | ⟨h1, rfl⟩ <;>
        simp_all [isWriter]
    · simp_all [isWriter]
    · exact absurd rfl (ha t)
    · simp_all [isWriter]
    · simp_all [isWriter]
  · simp [if_neg htu]

/-- a writer finishes -/
theorem writer_done (h0 : Reach N (x.st 0)) (hf : FairRun x) {n t : Nat} (h : isWriter ((x.st n).th t) = true) :
    ∃ k, n ≤ k ∧ isWriter ((x.st k).th t) = true ∧ (x.st (k + 1)).th t = .idle := by
  have held : ∀ n, isIn ((x.st n).th t) = true → isW ((x.st n).th t) = true →
      ∃ k, n ≤ k ∧ isWriter ((x.st k).th t) = true ∧ (x.st (k + 1)).th t = .idle := by
    have unl : ∀ n, (x.st n).th t = .wunl →
        ∃ k, n ≤ k ∧ isWriter ((x.st k).th t) = true ∧ (x.st (k + 1)).th t = .idle := by
      intro n h
      obtain ⟨k, hk, h1, h2⟩ := goes_on h0 hf (n := n) (t := t) (a := .run t) (by rw [h]; rfl)
      exact ⟨k, hk, by rw [h1, h]; rfl, by rw [h2, h]; rfl⟩
    have hld : ∀ n, (x.st n).th t = .wheld →
        ∃ k, n ≤ k ∧ isWriter ((x.st k).th t) = true ∧ (x.st (k + 1)).th t = .idle := by
      intro n h
      obtain ⟨k, hk, _, h2⟩ := goes_on h0 hf (n := n) (t := t) (a := .wrunlock t) (by rw [h]; rfl)
      obtain ⟨j, hj, r⟩ := unl (k + 1) (by rw [h2, h]; rfl)
      exact ⟨j, by omega, r⟩
    intro n _ h2
    cases e : (x.st n).th t <;> rw [e] at h2 <;> simp [isW] at h2
    · obtain ⟨k, hk, _, h2⟩ := goes_on h0 hf (n := n) (t := t) (a := .run t) (by rw [e]; rfl)
      obtain ⟨j, hj, r⟩ := hld (k + 1) (by rw [h2, e]; rfl)
      exact ⟨j, by omega, r⟩
    · exact hld n e
    · exact unl n e
  by_cases hw : (x.st n).th t = .wadd ∨ (x.st n).th t = .wwait ∨ (x.st n).th t = .wchk
  · obtain ⟨k, hk, h1⟩ := writer_gets_lock h0 hf hw
    simp only [HoldsWrite] at h1
    obtain ⟨j, hj, r⟩ := held k (by rw [h1]; rfl) (by rw [h1]; rfl)
    exact ⟨j, by omega, r⟩
  · refine held n ?_ ?_ <;> (cases e : (x.st n).th t <;> simp_all [isWriter, isIn, isW])

/-- **C56** (readers): in every fair infinite execution in which, from some time on, no thread calls `wrlock`, a thread
that has called `rdlock` gets the lock. -/
theorem reader_gets_lock (h0 : Reach N (x.st 0)) (hf : FairRun x) {m : Nat}
    (hq : ∀ k, m ≤ k → ∀ t, x.lab k ≠ some (.wrlock t)) {n r : Nat}
    (hr : (x.st n).th r = .rwait ∨ (x.st n).th r = .rchk) : ∃ k, n ≤ k ∧ HoldsRead (x.st k) r := by
  have chk : ∀ n, (x.st n).th r = .rchk → ∃ k, n ≤ k ∧ HoldsRead (x.st k) r := by
    intro n h
    obtain ⟨k, hk, _, h2⟩ := goes_on h0 hf (n := n) (t := r) (a := .run r) (by rw [h]; rfl)
    exact ⟨k + 1, by omega, by rw [h] at h2; exact h2⟩
  rcases hr with h | h
  · by_cases hc : ∃ k, n ≤ k ∧ (x.st k).th r = .rchk
    · obtain ⟨k, hk, h1⟩ := hc
      obtain ⟨j, hj, q⟩ := chk k h1
      exact ⟨j, by omega, q⟩
    · exfalso
      have stay : ∀ k, n ≤ k → (x.st k).th r = .rwait := by
        refine Exec.always (P := fun s : Sys => s.th r = Pc.rwait) h ?_
        intro k e hk hl hP
        obtain ⟨u, c, hu, ee, hm⟩ := (x.ok k e hl).moves (run_inv h0 k)
        have hne : (x.st (k + 1)).th r ≠ .rchk := fun h1 => hc ⟨k + 1, by omega, h1⟩
        rw [ee] at hne ⊢
        by_cases htu : r = u
        · subst htu
          simp only [if_true] at hne ⊢
          rcases hm with ⟨_, hm⟩ | ⟨_, h1, _⟩ | ⟨_, h1, _⟩ | ⟨_, h1, _⟩ | ⟨_, h1, _⟩
          · rcases hm with ⟨h1, h2, _⟩ | ⟨h1, _⟩ | ⟨h1, _⟩ | ⟨h1, _⟩ | ⟨h1, _⟩ | ⟨h1, _⟩ | ⟨h1, _⟩ <;>
              first | exact absurd h2 hne | (rw [hP] at h1; simp at h1)
          all_goals (rw [hP] at h1; simp at h1)
        · simp only [if_neg htu]; exact hP
      have keep : ∀ k, max n m ≤ k → ∀ t, isWriter ((x.st (k + 1)).th t) = true → isWriter ((x.st k).th t) = true := by
        intro k hk t ht
        cases hl : x.lab k with
        | none => rw [x.idle k hl] at ht; exact ht
        | some e =>
          exact becomes_writer (run_inv h0 k) (x.ok k e hl)
            (fun t he => hq k (by omega) t (by rw [hl, he])) t ht
      obtain ⟨p, hp, hset⟩ :=
        Fair.settles (fun k => num N isWriter (x.st k).th) (max n m) (fun k hk => num_mono (keep k hk))
      have hzero : num N isWriter (x.st p).th = 0 := by
        rcases Nat.eq_zero_or_pos (num N isWriter (x.st p).th) with h | hpos
        · exact h
        · exfalso
          obtain ⟨t, ht, hin⟩ := num_ge hpos
          obtain ⟨k, hk, h1, h2⟩ := writer_done h0 hf hin
          have := num_lt (keep k (by omega)) ht h1 (by rw [h2]; rfl)
          have e1 := hset k (by omega)
          have e2 := hset (k + 1) (by omega)
          omega
      have hrd : ∀ k, p ≤ k → (x.st k).rd = true := by
        intro k hk
        have i := run_inv h0 k
        have hz : num N isWriter (x.st k).th = 0 := by rw [← hzero]; exact hset k hk
        rw [i.rd, i.ww, i.writers]
        refine ⟨Nat.le_zero.1 ?_, Nat.le_zero.1 ?_⟩ <;> rw [← hz] <;> unfold num <;>
          refine List.countP_mono_left (fun t _ ht => ?_) <;>
          (cases e : (x.st k).th t <;> simp_all [isWriter, isW, isWw])
      obtain ⟨k, hk, hl⟩ := (hf r).1.weak (max n p) (fun k hk => by
        obtain ⟨v, e⟩ : ∃ v, run (x.st k) r = some v :=
          ⟨_, by simp only [Rwlock.run, stay k (by omega), hrd k (by omega), if_true]; rfl⟩
        exact ⟨_, .run r ((run_inv h0 k).lt r (by rw [stay k (by omega)]; simp)) e⟩)
      obtain ⟨u, c, hu, ee, hm⟩ := (x.ok k _ hl).moves (run_inv h0 k)
      have hs := stay k (by omega)
      rcases hm with ⟨he, hm⟩ | ⟨he, _⟩ | ⟨he, _⟩ | ⟨he, _⟩ | ⟨he, _⟩
      · simp only [Act.run.injEq] at he
        subst he
        have hs' := stay (k + 1) (by omega)
        rw [ee] at hs'
        simp only [if_true] at hs'
        rcases hm with ⟨h1, h2, _⟩ | ⟨h1, _⟩ | ⟨h1, _⟩ | ⟨h1, _⟩ | ⟨h1, _⟩ | ⟨h1, _⟩ | ⟨h1, _⟩ <;>
          first | (rw [hs] at h1; simp at h1; done) | (rw [hs'] at h2; simp at h2)
      all_goals simp at he
  · exact chk n h

end

/-! ## A concrete fair execution: a reader inside, a writer that waits, another reader behind it -/

/-- the steps as a function -/
def perform (N : Nat) : Act → Sys → Option Sys
  | .run t, s => if t < N then run s t else none
  | .rdlock t, s => if t < N ∧ s.th t = .idle then some (s.go t .rwait) else none
  | .wrlock t, s => if t < N ∧ s.th t = .idle then some (s.go t .wadd) else none
  | .rdunlock t, s => if t < N ∧ s.th t = .rheld then some (s.go t .runl) else none
  | .wrunlock t, s => if t < N ∧ s.th t = .wheld then some (s.go t .wunl) else none

theorem perform_sound {N : Nat} (a : Act) (s u : Sys) (h : perform N a s = some u) : AStep N a s u := by
  cases a with
  | run t =>
    simp only [perform] at h
    split at h
    · next ht => exact .run t ht h
    · simp at h
  | rdlock t =>
    simp only [perform] at h
    split at h
    · next ht => obtain rfl := Option.some.inj h; exact .rdlock t ht.1 ht.2
    · simp at h
  | wrlock t =>
    simp only [perform] at h
    split at h
    · next ht => obtain rfl := Option.some.inj h; exact .wrlock t ht.1 ht.2
    · simp at h
  | rdunlock t =>
    simp only [perform] at h
    split at h
    · next ht => obtain rfl := Option.some.inj h; exact .rdunlock t ht.1 ht.2
    · simp at h
  | wrunlock t =>
    simp only [perform] at h
    split at h
    · next ht => obtain rfl := Option.some.inj h; exact .wrunlock t ht.1 ht.2
    · simp at h

def demo : List Act :=
  [.rdlock 0, .run 0, .run 0, .wrlock 1, .run 1, .rdlock 2, .rdunlock 0, .run 0, .run 1, .run 1, .wrunlock 1, .run 1,
    .run 2, .run 2, .rdunlock 2, .run 2]

/-- non-vacuity: a fair execution of three threads in which, after five steps, thread 1 waits in `wrlock` while thread 0
holds the lock, and after six steps thread 2 waits in `rdlock`. -/
example : ∃ x : Exec (AStep 3), Reach 3 (x.st 0) ∧ FairRun x ∧ (x.st 5).th 1 = .wwait ∧ HoldsRead (x.st 5) 0 ∧
    (x.st 6).th 2 = .rwait ∧ ∀ k, 6 ≤ k → ∀ t, x.lab k ≠ some (.wrlock t) := by
  obtain ⟨u, hu, hidle⟩ : ∃ u, Fair.runs (perform 3) demo Sys.init = some u ∧ ∀ t, u.th t = .idle := by
    refine ⟨_, rfl, fun t => ?_⟩
    simp only [Sys.go, Sys.init]
    by_cases h2 : t = 2 <;> by_cases h1 : t = 1 <;> by_cases h0 : t = 0 <;> simp [h0, h1, h2]
  obtain ⟨x, h0, _, hl, hst, hfair⟩ := Fair.exists_finite (step := AStep 3) id (perform 3) perform_sound hu
  refine ⟨x, by rw [h0]; exact .init, fun t => ⟨hfair _ fun v hv => ?_, (hfair _ fun v hv => ?_).weak,
    (hfair _ fun v hv => ?_).weak⟩, by rw [hst]; rfl, by rw [hst]; rfl, by rw [hst]; rfl, ?_⟩
  · cases hv with
    | run _ _ h => simp [run, hidle] at h
  · cases hv with
    | rdunlock _ _ h => rw [hidle] at h; simp at h
  · cases hv with
    | wrunlock _ _ h => rw [hidle] at h; simp at h
  · intro k hk t
    rw [hl]
    by_cases hk' : k < 16
    · have : k = 6 ∨ k = 7 ∨ k = 8 ∨ k = 9 ∨ k = 10 ∨ k = 11 ∨ k = 12 ∨ k = 13 ∨ k = 14 ∨ k = 15 := by omega
      rcases this with h | h | h | h | h | h | h | h | h | h <;> subst h <;> simp [demo]
    · rw [List.getElem?_eq_none (by simp [demo]; omega)]; simp

end Verif.Rwlock
