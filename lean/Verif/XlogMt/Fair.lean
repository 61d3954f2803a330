import Verif.XlogMt.Props
import Verif.Common.Fair
/-!
# C79: every call of xlog returns, in every fair infinite execution

After `xlog_global_init`.  Fairness: a call that can go on again and again goes on (strong: a thread waiting for the mutex can go on
only while it is free, and others may take it first), and the user's callback returns.  The callback does not make calls that need
the mutex (`callback_deadlock` shows what happens otherwise).  Threads may log and configure for ever.
-/
namespace Verif.XlogMt
open Verif.Fair (Exec Enabled)

/-- A step of any thread that keeps the rules: no `xlog_global_init`/`xlog_global_cleanup` meanwhile, no call from a callback that needs
the mutex. -/
def LStep (e : Ev) (s u : Sys) : Prop :=
  e.inner = true ∧ (∀ t c, e = .nest t c → needsLock s.cfg c = false) ∧ ∃ obs, step s e = some (u, obs)

/-- Every call that can go on again and again goes on; every callback returns. -/
def FairRun (x : Exec LStep) : Prop := ∀ t, x.Strong (.act t) ∧ x.Strong (.cbRet t)

/-- has the mutex -/
def held : Pc → Bool
  | .body _ _ _ | .inCb _ _ _ | .unlock => true
  | _ => false

/-- own steps left (at most) -/
def rank : Pc → Nat
  | .idle => 0
  | .dead => 0
  | .done _ => 1
  | .get _ => 2
  | .unlock => 2
  | .body _ todo _ => 2 * todo.length + 3
  | .inCb _ todo _ => 2 * todo.length + 4
  | .lock c => 2 * (prog c).length + 4
  | .want c => 2 * (prog c).length + 5
  | .chk3 _ _ _ => 2 * 16 + 6
  | .chk2 _ _ _ => 2 * 16 + 7
  | .chk1 _ _ _ => 2 * 16 + 8

structure J (s : Sys) : Prop where
  mutex : ∃ o, s.mutex = some o ∧ ∀ t, held (s.pc t) = true ↔ o = some t
  alive : ∀ t, s.pc t ≠ .dead

/-- the events of thread `t` in a call -/
def ownEv (t : Nat) : Ev → Bool
  | .act u | .fail u | .cbRet u => u == t
  | _ => false

theorem go_same (s : Sys) (t : Nat) (p : Pc) : (s.go t p).pc t = p := if_pos rfl
theorem go_else (s : Sys) {t u : Nat} (p : Pc) (h : u ≠ t) : (s.go t p).pc u = s.pc u := if_neg h

theorem J.keep {s : Sys} (h : J s) {c : Cfg} {t : Nat} {p : Pc} (hp : p ≠ .dead) (hh : held p = held (s.pc t)) :
    J (({ s with cfg := c } : Sys).go t p) := by
  obtain ⟨o, h1, h2⟩ := h.mutex
  refine ⟨⟨o, h1, fun u => ?_⟩, fun u => ?_⟩
  · by_cases e : u = t
    · subst e; rw [go_same, hh]; exact h2 u
    · rw [go_else _ _ e]; exact h2 u
  · by_cases e : u = t
    · subst e; rw [go_same]; exact hp
    · rw [go_else _ _ e]; exact h.alive u

theorem J.take {s : Sys} (h : J s) {t : Nat} {p : Pc} (hm : s.mutex = some none) (hp : p ≠ .dead) (hh : held p = true) :
    J (({ s with mutex := some (some t) } : Sys).go t p) := by
  obtain ⟨o, h1, h2⟩ := h.mutex
  refine ⟨⟨some t, rfl, fun u => ?_⟩, fun u => ?_⟩
  · by_cases e : u = t
    · subst e; rw [go_same]; exact ⟨fun _ => rfl, fun _ => hh⟩
    · rw [go_else _ _ e]
      rw [h1] at hm
      cases hm
      constructor
      · intro k; exact absurd ((h2 u).1 k) nofun
      · intro k; exact absurd (Option.some.inj k).symm e
  · by_cases e : u = t
    · subst e; rw [go_same]; exact hp
    · rw [go_else _ _ e]; exact h.alive u

theorem J.give {s : Sys} (h : J s) {t : Nat} {p : Pc} (hm : s.mutex = some (some t)) (hp : p ≠ .dead) (hh : held p = false) :
    J (({ s with mutex := some none } : Sys).go t p) := by
  obtain ⟨o, h1, h2⟩ := h.mutex
  refine ⟨⟨none, rfl, fun u => ?_⟩, fun u => ?_⟩
  · by_cases e : u = t
    · subst e; rw [go_same, hh]; exact ⟨nofun, nofun⟩
    · rw [go_else _ _ e]
      rw [h1] at hm
      cases hm
      refine ⟨fun k => absurd ((h2 u).1 k) fun k => e (Option.some.inj k).symm, nofun⟩
  · by_cases e : u = t
    · subst e; rw [go_same]; exact hp
    · rw [go_else _ _ e]; exact h.alive u

theorem prog_print (l : Nat) (g : Option Nat) (i : Nat) : (prog (.print l g i)).length = 16 := rfl

/-- What one own step of thread `t` does: the invariant stays, the rank shrinks, only `done` ends the call, and the mutex is kept or
given back. -/
structure Own (s u : Sys) (t : Nat) : Prop where
  inv : J u
  less : rank (u.pc t) < rank (s.pc t)
  others : ∀ k, k ≠ t → u.pc k = s.pc k
  ends : u.pc t = .idle → ∃ v, s.pc t = .done v
  lock : held (s.pc t) = true → held (u.pc t) = true ∨ u.mutex = some none

theorem Own.keep {s : Sys} (h : J s) {c : Cfg} {t : Nat} {p : Pc} (hp : p ≠ .dead) (hh : held p = held (s.pc t)) (hr : rank p < rank (s.pc t))
    (hi : p = .idle → ∃ v, s.pc t = .done v) : Own s (({ s with cfg := c } : Sys).go t p) t := by
  refine ⟨h.keep hp hh, by rw [go_same]; exact hr, fun k hk => go_else _ _ hk, by rw [go_same]; exact hi, fun k => .inl ?_⟩
  rw [go_same, hh]; exact k

theorem act_own {s u : Sys} {t : Nat} {obs : List Obs} (h : J s) (he : act s t = some (u, obs)) : Own s u t := by
  have keep : ∀ {p : Pc}, p ≠ .dead → held p = held (s.pc t) → rank p < rank (s.pc t) → (p = .idle → ∃ v, s.pc t = .done v) →
      Own s (s.go t p) t := fun a b c d => Own.keep (c := s.cfg) h a b c d
  obtain ⟨o, hm, hh⟩ := h.mutex
  unfold act at he
  cases hp : s.pc t with
  | idle => rw [hp] at he; cases he
  | inCb c todo v => rw [hp] at he; cases he
  | dead => rw [hp] at he; cases he
  | chk1 l g i =>
    rw [hp] at he
    simp only [Option.some.injEq, Prod.mk.injEq] at he
    obtain ⟨rfl, _⟩ := he
    split
    · exact keep nofun (by rw [hp]; rfl) (by rw [hp]; simp [rank]) nofun
    · exact keep nofun (by rw [hp]; rfl) (by rw [hp]; simp [rank]) nofun
  | chk2 l g i =>
    rw [hp] at he
    simp only [Option.some.injEq, Prod.mk.injEq] at he
    obtain ⟨rfl, _⟩ := he
    split
    · exact keep nofun (by rw [hp]; rfl) (by rw [hp]; simp [rank]) nofun
    · exact keep nofun (by rw [hp]; rfl) (by rw [hp]; simp [rank]) nofun
  | chk3 l g i =>
    rw [hp] at he
    simp only [Option.some.injEq, Prod.mk.injEq] at he
    obtain ⟨rfl, _⟩ := he
    split
    · exact keep nofun (by rw [hp]; rfl) (by rw [hp]; simp [rank, prog_print]) nofun
    · exact keep nofun (by rw [hp]; rfl) (by rw [hp]; simp [rank]) nofun
  | get f =>
    rw [hp] at he
    simp only [Option.some.injEq, Prod.mk.injEq] at he
    obtain ⟨rfl, _⟩ := he
    exact keep nofun (by rw [hp]; rfl) (by rw [hp]; simp [rank]) nofun
  | want c =>
    rw [hp, hm] at he
    simp only [Option.some.injEq, Prod.mk.injEq] at he
    obtain ⟨rfl, _⟩ := he
    exact keep nofun (by rw [hp]; rfl) (by rw [hp]; simp [rank]) nofun
  | lock c =>
    rw [hp, hm] at he
    cases o with
    | some w => cases he
    | none =>
      simp only [Option.some.injEq, Prod.mk.injEq] at he
      obtain ⟨rfl, _⟩ := he
      refine ⟨h.take hm nofun rfl, ?_, fun k hk => go_else _ _ hk, ?_, ?_⟩
      · rw [go_same, hp]; simp [rank]
      · rw [go_same]; nofun
      · rw [hp]; nofun
  | body c todo v =>
    rw [hp] at he
    cases todo with
    | nil =>
      simp only [hm, Option.some.injEq, Prod.mk.injEq] at he
      obtain ⟨rfl, _⟩ := he
      exact keep nofun (by rw [hp]; rfl) (by rw [hp]; simp [rank]) nofun
    | cons m todo =>
      simp only [Option.some.injEq] at he
      cases m with
      | load f =>
        simp only [exec, Prod.mk.injEq] at he
        obtain ⟨rfl, _⟩ := he
        exact keep nofun (by rw [hp]; rfl) (by rw [hp]; simp [rank]) nofun
      | store a f y =>
        simp only [exec, Prod.mk.injEq] at he
        obtain ⟨rfl, _⟩ := he
        exact Own.keep h nofun (by rw [hp]; rfl) (by rw [hp]; simp [rank]) nofun
      | callback =>
        simp only [exec] at he
        split at he
        · simp only [Prod.mk.injEq] at he
          obtain ⟨rfl, _⟩ := he
          exact keep nofun (by rw [hp]; rfl) (by rw [hp]; simp [rank]) nofun
        · simp only [Prod.mk.injEq] at he
          obtain ⟨rfl, _⟩ := he
          exact keep nofun (by rw [hp]; rfl) (by rw [hp]; simp [rank]; omega) nofun
      | _ =>
        simp only [exec, Prod.mk.injEq] at he
        obtain ⟨rfl, _⟩ := he
        exact keep nofun (by rw [hp]; rfl) (by rw [hp]; simp [rank]) nofun
  | unlock =>
    have ho : o = some t := (hh t).1 (by rw [hp]; rfl)
    subst ho
    rw [hp, hm] at he
    simp only [if_true, Option.some.injEq, Prod.mk.injEq] at he
    obtain ⟨rfl, _⟩ := he
    refine ⟨h.give hm nofun rfl, ?_, fun k hk => go_else _ _ hk, ?_, fun _ => .inr rfl⟩
    · rw [go_same, hp]; simp [rank]
    · rw [go_same]; nofun
  | done v =>
    rw [hp] at he
    simp only [Option.some.injEq, Prod.mk.injEq] at he
    obtain ⟨rfl, _⟩ := he
    exact keep nofun (by rw [hp]; rfl) (by rw [hp]; simp [rank]) fun _ => ⟨v, hp⟩

theorem own_own {s u : Sys} {t : Nat} {e : Ev} (h : J s) (hs : LStep e s u) (ho : ownEv t e = true) : Own s u t := by
  obtain ⟨_, _, obs, he⟩ := hs
  cases e with
  | act w =>
    have : w = t := by simpa [ownEv] using ho
    subst this
    exact act_own h he
  | fail w =>
    have : w = t := by simpa [ownEv] using ho
    subst this
    simp only [step] at he
    split at he
    · rename_i c r v hp
      simp only [Option.some.injEq, Prod.mk.injEq] at he
      obtain ⟨rfl, _⟩ := he
      exact Own.keep (c := s.cfg) h nofun (by rw [hp]; rfl) (by rw [hp]; simp [rank]) nofun
    · cases he
  | cbRet w =>
    have : w = t := by simpa [ownEv] using ho
    subst this
    simp only [step] at he
    split at he
    · rename_i c r v hp
      simp only [Option.some.injEq, Prod.mk.injEq] at he
      obtain ⟨rfl, _⟩ := he
      exact Own.keep (c := s.cfg) h nofun (by rw [hp]; rfl) (by rw [hp]; simp [rank]) nofun
    · cases he
  | _ => cases ho

theorem start_free (c : Call) : start c ≠ .dead ∧ held (start c) = false := by
  cases c <;> simp only [start, getField] <;> (try split) <;> exact ⟨nofun, rfl⟩

/-- the other events: the invariant stays, and a thread in a call is not touched unless it is its own event -/
theorem step_all {s u : Sys} {e : Ev} (h : J s) (hs : LStep e s u) :
    J u ∧ ∀ t, s.pc t ≠ .idle → ownEv t e = false → u.pc t = s.pc t := by
  have own : ∀ w, ownEv w e = true → (∀ t, ownEv t e = false → t ≠ w) →
      J u ∧ ∀ t, s.pc t ≠ .idle → ownEv t e = false → u.pc t = s.pc t := fun w hw hn =>
    have k := own_own h hs hw
    ⟨k.inv, fun t _ ht => k.others t (hn t ht)⟩
  obtain ⟨hi, hb, obs, he⟩ := id hs
  cases e with
  | act w => exact own w (by simp [ownEv]) fun t ht e => by subst e; simp [ownEv] at ht
  | fail w => exact own w (by simp [ownEv]) fun t ht e => by subst e; simp [ownEv] at ht
  | cbRet w => exact own w (by simp [ownEv]) fun t ht e => by subst e; simp [ownEv] at ht
  | call w c =>
    simp only [step] at he
    split at he
    · rename_i hp
      simp only [Option.some.injEq, Prod.mk.injEq] at he
      obtain ⟨rfl, _⟩ := he
      obtain ⟨a, b⟩ := start_free c
      refine ⟨J.keep (c := s.cfg) h a (by rw [hp, b]; rfl), fun t ht _ => go_else _ _ fun e => ?_⟩
      subst e; exact ht hp
    · cases he
  | nest w c =>
    simp only [step] at he
    split at he
    · rw [hb w c rfl] at he
      simp only [Bool.false_eq_true, if_false, Option.some.injEq, Prod.mk.injEq] at he
      obtain ⟨rfl, _⟩ := he
      exact ⟨h, fun _ _ _ => rfl⟩
    · cases he
  | globalInit => cases hi
  | globalCleanup => cases hi

section
variable {x : Exec LStep}

theorem J_all (h0 : J (x.st 0)) (k : Nat) : J (x.st k) := by
  induction k with
  | zero => exact h0
  | succ k ih =>
    cases hl : x.lab k with
    | none => rw [x.idle k hl]; exact ih
    | some e => exact (step_all ih (x.ok k e hl)).1

theorem stay (h0 : J (x.st 0)) {k t : Nat} {q : Pc} (h : (x.st k).pc t = q) (hq : q ≠ .idle) (d : Nat) :
    (x.st (k + d)).pc t = q ∨ ∃ j e, k ≤ j ∧ (x.st j).pc t = q ∧ x.lab j = some e ∧ ownEv t e = true := by
  induction d with
  | zero => exact .inl h
  | succ d ih =>
    rcases ih with h1 | h1
    · cases hl : x.lab (k + d) with
      | none => left; have := x.idle _ hl; rw [Nat.add_assoc] at this; rw [this]; exact h1
      | some e =>
        cases ho : ownEv t e with
        | true => exact .inr ⟨k + d, e, by omega, h1, hl, ho⟩
        | false =>
          left
          exact ((step_all (J_all h0 _) (x.ok _ e hl)).2 t (by rw [h1]; exact hq) ho).trans h1
    · exact .inr h1

/-- what can go on again and again goes on -/
theorem goes (h0 : J (x.st 0)) (fair : FairRun x) {k t : Nat} {q : Pc} (h : (x.st k).pc t = q) (hq : q ≠ .idle)
    (en : (∀ m, k ≤ m → ∃ j, m ≤ j ∧ ((x.st j).pc t = q → Enabled LStep (.act t) (x.st j))) ∨
      (∀ m, k ≤ m → (x.st m).pc t = q → Enabled LStep (.cbRet t) (x.st m))) :
    ∃ j e, k ≤ j ∧ (x.st j).pc t = q ∧ x.lab j = some e ∧ ownEv t e = true := by
  apply Classical.byContradiction
  intro hn
  have here : ∀ m, k ≤ m → (x.st m).pc t = q := by
    intro m hm
    rcases stay h0 h hq (m - k) with h1 | h1
    · rwa [show k + (m - k) = m by omega] at h1
    · exact absurd h1 hn
  rcases en with en | en
  · obtain ⟨j, h1, h2⟩ := (fair t).1 (fun m => by
      obtain ⟨j, h1, h2⟩ := en (max k m) (by omega)
      exact ⟨j, by omega, h2 (here j (by omega))⟩) k
    exact hn ⟨j, _, h1, here j h1, h2, by simp [ownEv]⟩
  · obtain ⟨j, h1, h2⟩ := (fair t).2 (fun m => ⟨max k m, by omega, en _ (by omega) (here _ (by omega))⟩) k
    exact hn ⟨j, _, h1, here j h1, h2, by simp [ownEv]⟩

theorem can_act {s u : Sys} {t : Nat} {obs : List Obs} (h : act s t = some (u, obs)) : Enabled LStep (.act t) s :=
  ⟨u, rfl, nofun, obs, h⟩

/-- all but the wait for the mutex -/
theorem goes_free (h0 : J (x.st 0)) (fair : FairRun x) {k t : Nat} {q : Pc} (h : (x.st k).pc t = q) (hq : q ≠ .idle)
    (hl : ∀ c, q ≠ .lock c) : ∃ j e, k ≤ j ∧ (x.st j).pc t = q ∧ x.lab j = some e ∧ ownEv t e = true := by
  by_cases hcb : ∃ c r v, q = .inCb c r v
  · obtain ⟨c, r, v, rfl⟩ := hcb
    exact goes h0 fair h hq (.inr fun m _ hm => ⟨_, rfl, nofun, _, by simp only [step, hm]; rfl⟩)
  · refine goes h0 fair h hq (.inl fun m _ => ⟨m, Nat.le_refl _, fun hm => ?_⟩)
    obtain ⟨o, h1, h2⟩ := (J_all h0 m).mutex
    cases q with
    | idle => exact absurd rfl hq
    | lock c => exact absurd rfl (hl c)
    | inCb c r v => exact absurd ⟨c, r, v, rfl⟩ hcb
    | dead => exact absurd hm ((J_all h0 m).alive t)
    | body c todo v =>
      cases todo with
      | nil => exact can_act (by simp only [act, hm, h1]; rfl)
      | cons a r => exact can_act (u := (exec (x.st m) t c a r v).1) (obs := (exec (x.st m) t c a r v).2) (by simp only [act, hm])
    | unlock =>
      have ho : o = some t := (h2 t).1 (by rw [hm]; rfl)
      subst ho
      exact can_act (by simp only [act, hm, h1, if_true]; rfl)
    | want c => exact can_act (by simp only [act, hm, h1]; rfl)
    | _ => exact can_act (by simp only [act, hm]; rfl)

/-- the mutex is free again and again -/
theorem mutex_freed (h0 : J (x.st 0)) (fair : FairRun x) (k : Nat) : ∃ m, k ≤ m ∧ (x.st m).mutex = some none := by
  have key : ∀ b k t, held ((x.st k).pc t) = true → rank ((x.st k).pc t) ≤ b → ∃ m, k ≤ m ∧ (x.st m).mutex = some none := by
    intro b
    induction b with
    | zero =>
      intro k t h1 h2
      cases hp : (x.st k).pc t <;> rw [hp] at h1 h2 <;> first | simp [rank] at h2; done | cases h1
    | succ b ih =>
      intro k t h1 h2
      obtain ⟨j, e, h3, h4, h5, h6⟩ := goes_free h0 fair (q := (x.st k).pc t) rfl (fun e => by rw [e] at h1; cases h1)
        (fun c e => by rw [e] at h1; cases h1)
      have ow := own_own (J_all h0 j) (x.ok j e h5) h6
      have hl := ow.lock (by rw [h4]; exact h1)
      rcases hl with hl | hl
      · have := ow.less
        rw [h4] at this
        obtain ⟨m, h7, h8⟩ := ih (j + 1) t hl (by omega)
        exact ⟨m, by omega, h8⟩
      · exact ⟨j + 1, by omega, hl⟩
  obtain ⟨o, h1, h2⟩ := (J_all h0 k).mutex
  cases o with
  | none => exact ⟨k, Nat.le_refl _, h1⟩
  | some t => exact key _ k t ((h2 t).2 rfl) (Nat.le_refl _)

/-- **C79** (liveness).  After `xlog_global_init`, in every fair infinite execution in which callbacks return and make no call that needs
the mutex, every call of xlog returns: however many threads log and configure, and even if they do so for ever. -/
theorem every_call_returns (hm : (x.st 0).mutex = some none) (hidle : ∀ t, (x.st 0).pc t = .idle) (fair : FairRun x) {k t : Nat}
    (hb : (x.st k).pc t ≠ .idle) :
    ∃ m v, k ≤ m ∧ (x.st m).pc t = .done v ∧ x.lab m = some (.act t) ∧ (x.st (m + 1)).pc t = .idle := by
  have h0 : J (x.st 0) := ⟨⟨none, hm, fun t => by rw [hidle t]; exact ⟨nofun, nofun⟩⟩, fun t => by rw [hidle t]; nofun⟩
  have key : ∀ b k, (x.st k).pc t ≠ .idle → rank ((x.st k).pc t) ≤ b →
      ∃ m v, k ≤ m ∧ (x.st m).pc t = .done v ∧ x.lab m = some (.act t) ∧ (x.st (m + 1)).pc t = .idle := by
    intro b
    induction b with
    | zero =>
      intro k h1 h2
      cases hp : (x.st k).pc t with
      | idle => exact absurd hp h1
      | dead => exact absurd hp ((J_all h0 k).alive t)
      | _ => rw [hp] at h2; simp [rank] at h2
    | succ b ih =>
      intro k h1 h2
      have hgo : ∃ j e, k ≤ j ∧ (x.st j).pc t = (x.st k).pc t ∧ x.lab j = some e ∧ ownEv t e = true := by
        by_cases hl : ∃ c, (x.st k).pc t = .lock c
        · obtain ⟨c, hl⟩ := hl
          refine goes h0 fair rfl h1 (.inl fun m _ => ?_)
          obtain ⟨j, h3, h4⟩ := mutex_freed h0 fair m
          exact ⟨j, h3, fun hj => can_act (by rw [hl] at hj; simp only [act, hj, h4]; rfl)⟩
        · exact goes_free h0 fair rfl h1 fun c e => hl ⟨c, e⟩
      obtain ⟨j, e, h3, h4, h5, h6⟩ := hgo
      have ow := own_own (J_all h0 j) (x.ok j e h5) h6
      by_cases hi : (x.st (j + 1)).pc t = .idle
      · obtain ⟨v, hv⟩ := ow.ends hi
        refine ⟨j, v, h3, hv, ?_, hi⟩
        have hs := x.ok j e h5
        obtain ⟨_, _, obs, he⟩ := hs
        cases e with
        | act w =>
          have : w = t := by simpa [ownEv] using h6
          subst this; exact h5
        | fail w =>
          have : w = t := by simpa [ownEv] using h6
          subst this
          simp only [step, hv] at he
          cases he
        | cbRet w =>
          have : w = t := by simpa [ownEv] using h6
          subst this
          simp only [step, hv] at he
          cases he
        | _ => cases h6
      · have := ow.less
        rw [h4] at this
        obtain ⟨m, v, h7, h8⟩ := ih (j + 1) hi (by omega)
        exact ⟨m, v, by omega, h8⟩
  exact key _ k hb (Nat.le_refl _)

end

/-! ### A concrete fair execution -/

/-- Two threads: thread 1 logs and is in the middle of it when thread 2 wants to configure. -/
def first : List Ev := [.call 1 (.print 5 none 7)] ++ acts 1 8 ++ [.call 2 (.minLevel 3)] ++ acts 2 1

def second : List Ev := acts 1 16 ++ acts 2 5

def fresh : Sys := ⟨Cfg.init, some none, fun _ => .idle⟩

/-- Calls and their steps, of threads 1 and 2. -/
def plain : Ev → Bool
  | .call t _ | .act t | .cbRet t => t == 1 || t == 2
  | _ => false

/-- One event, without what is observed. -/
def step1 (e : Ev) (s : Sys) : Option Sys := if plain e then (step s e).map (·.1) else none

theorem step1_lstep {e : Ev} {s u : Sys} (h : step1 e s = some u) : LStep e s u ∧ plain e = true := by
  unfold step1 at h
  split at h
  · rename_i hp
    obtain ⟨⟨u', obs⟩, h3, rfl⟩ := Option.map_eq_some_iff.1 h
    refine ⟨⟨?_, fun t c e => ?_, obs, h3⟩, hp⟩
    · cases e <;> first | rfl | cases hp
    · subst e; cases hp
  · cases h

theorem runs_others {t : Nat} (ht : t ≠ 1 ∧ t ≠ 2) : ∀ {es : List Ev} {s u : Sys}, J s → Fair.runs step1 es s = some u → u.pc t = s.pc t := by
  intro es
  induction es with
  | nil => intro s u _ h; cases h; rfl
  | cons e es ih =>
    intro s u hj h
    simp only [Fair.runs] at h
    obtain ⟨w, h1, h2⟩ := Option.bind_eq_some_iff.1 h
    obtain ⟨h3, h4⟩ := step1_lstep h1
    rw [ih (step_all hj h3).1 h2]
    cases e with
    | act v =>
      refine (own_own hj h3 (t := v) (by simp [ownEv])).others t fun e => ?_
      subst e; simp [plain] at h4; omega
    | cbRet v =>
      refine (own_own hj h3 (t := v) (by simp [ownEv])).others t fun e => ?_
      subst e; simp [plain] at h4; omega
    | call v c =>
      obtain ⟨_, _, obs, he⟩ := h3
      simp only [step] at he
      split at he
      · cases he
        refine go_else _ _ fun e => ?_
        subst e; simp [plain] at h4; omega
      · cases he
    | _ => cases h4

/-- Carry out acts of calls, then nothing: a fair execution if nobody is in a call at the end. -/
theorem fair_of_run (as bs : List Ev) {s v u : Sys} (hv : Fair.runs step1 as s = some v) (hu : Fair.runs step1 (as ++ bs) s = some u)
    (hi : ∀ t, u.pc t = .idle) : ∃ x : Exec LStep, x.st 0 = s ∧ FairRun x ∧ ∃ k, x.st k = v := by
  obtain ⟨x, h1, _, _, h4, h5⟩ := Fair.exists_finite (step := LStep) id step1 (fun e s u h => (step1_lstep h).1) hu
  refine ⟨x, h1, fun t => ⟨h5 _ ?_, h5 _ ?_⟩, as.length, ?_⟩
  · rintro w ⟨_, _, obs, h⟩
    simp only [step, act, hi t] at h
    cases h
  · rintro w ⟨_, _, obs, h⟩
    simp only [step, hi t] at h
    cases h
  · rw [h4, List.take_left, hv]; rfl

theorem fresh_J : J fresh := ⟨⟨none, rfl, fun _ => ⟨nofun, nofun⟩⟩, fun _ => nofun⟩

/-- A fair execution in which, at some time, thread 1 is in the middle of a logging call and thread 2 waits for the mutex. -/
example : ∃ x : Exec LStep, (x.st 0).mutex = some none ∧ (∀ t, (x.st 0).pc t = .idle) ∧ FairRun x ∧
    ∃ k c r v, (x.st k).pc 1 = .body c r v ∧ r.length = 13 ∧ (x.st k).pc 2 = .lock (.minLevel 3) := by
  obtain ⟨v, hv, h1, h2⟩ : ∃ v, Fair.runs step1 first fresh = some v ∧ (∃ c r w, v.pc 1 = .body c r w ∧ r.length = 13) ∧
      v.pc 2 = .lock (.minLevel 3) := ⟨_, rfl, ⟨_, _, _, rfl, rfl⟩, rfl⟩
  obtain ⟨u, hu, h3, h4⟩ : ∃ u, Fair.runs step1 (first ++ second) fresh = some u ∧ u.pc 1 = .idle ∧ u.pc 2 = .idle :=
    ⟨_, rfl, rfl, rfl⟩
  obtain ⟨x, e0, hf, k, hk⟩ := fair_of_run first second hv hu fun t => by
    by_cases e1 : t = 1
    · subst e1; exact h3
    · by_cases e2 : t = 2
      · subst e2; exact h4
      · exact (runs_others ⟨e1, e2⟩ fresh_J hu).trans rfl
  obtain ⟨c, r, w, h5, h6⟩ := h1
  refine ⟨x, by rw [e0]; rfl, fun t => by rw [e0]; rfl, hf, k, c, r, w, by rw [hk]; exact h5, h6, by rw [hk]; exact h2⟩

end Verif.XlogMt
