import Verif.ThreadLife.Props
import Verif.Common.Fair
/-!
# C64: in every fair infinite execution the calls return and the blocks are released

Any number of threads (no bound `N`), any new calls at any time, `malloc` and `CreateThread` fail when they like, and start
functions may run for ever.  Fairness: a thread, or the owner of a thread, whose next step is possible again and again takes it.
Nothing is asked of the start functions except where a theorem says so, and then only of the one it speaks about.
-/
namespace Verif.ThreadLife
open Verif.Tot
open Verif.Fair (Exec Enabled)

/-- the steps of `Step`, labelled -/
inductive AStep : Ev → Sys → Sys → Prop where
  | w {s s' : Sys} (i : Nat) (h : runW s i = some s') : AStep (.w i) s s'
  | o {s s' : Sys} (i : Nat) (h : runO s i = some s') : AStep (.o i) s s'
  | ret {s : Sys} (i v : Nat) (h : (s.b i).w = .user) :
      AStep (.ret i v) s (s.set i { s.b i with w := .store v, result := some v })
  | create {s : Sys} (i : Nat) (h : (s.b i).o = .idle) : AStep (.create i) s (s.set i Blk.fresh)
  | noThread {s : Sys} (i : Nat) (h : (s.b i).o = .idle) : AStep (.noThread i) s (s.set i Blk.stillborn)
  | noMem {s : Sys} (i : Nat) (h : (s.b i).o = .idle) : AStep (.noMem i) s (s.set i Blk.noMem)
  | join {s : Sys} (i : Nat) (h : (s.b i).o = .owns) : AStep (.join i) s (s.set i { s.b i with o := .jtest })
  | detach {s : Sys} (i : Nat) (h : (s.b i).o = .owns) : AStep (.detach i) s (s.set i { s.b i with o := .dtest })

/-- the labelled steps are the steps of the model -/
theorem AStep.step {e s s'} (h : AStep e s s') : ∃ N, Step N s s' := by
  cases h with
  | w i h => exact ⟨i + 1, .runW i (by omega) h⟩
  | o i h => exact ⟨i + 1, .runO i (by omega) h⟩
  | ret i v h => exact ⟨i + 1, .ret i v (by omega) h⟩
  | create i h => exact ⟨i + 1, .create i (by omega) h⟩
  | noThread i h => exact ⟨i + 1, .noThread i (by omega) h⟩
  | noMem i h => exact ⟨i + 1, .noMem i (by omega) h⟩
  | join i h => exact ⟨i + 1, .join i (by omega) h⟩
  | detach i h => exact ⟨i + 1, .detach i (by omega) h⟩

theorem step_labelled {N s s'} (h : Step N s s') : ∃ e, AStep e s s' := by
  cases h with
  | runW i _ h => exact ⟨_, .w i h⟩
  | runO i _ h => exact ⟨_, .o i h⟩
  | ret i v _ h => exact ⟨_, .ret i v h⟩
  | create i _ h => exact ⟨_, .create i h⟩
  | noThread i _ h => exact ⟨_, .noThread i h⟩
  | noMem i _ h => exact ⟨_, .noMem i h⟩
  | join i _ h => exact ⟨_, .join i h⟩
  | detach i _ h => exact ⟨_, .detach i h⟩

/-- every thread and every owner is scheduled fairly -/
structure FairRun (x : Exec AStep) : Prop where
  w : ∀ i, x.Strong (.w i)
  o : ∀ i, x.Strong (.o i)

/-! ## What one step does -/

theorem runW_frame {s s' : Sys} {i : Nat} (h : runW s i = some s') :
    (∀ j, j ≠ i → s'.b j = s.b j) ∧ (s'.b i).o = (s.b i).o := by
  simp only [runW] at h
  split at h <;> simp only [Option.some.injEq, reduceCtorEq, Option.ite_none_right_eq_some] at h
  all_goals first
    | (obtain ⟨_, rfl⟩ := h; exact ⟨fun j hj => by simp [Sys.set, upd_other _ _ hj], by simp [Sys.set]⟩)
    | (subst h; exact ⟨fun j hj => by simp [Sys.set, upd_other _ _ hj], by simp [Sys.set]⟩)

theorem runO_frame {s s' : Sys} {i : Nat} (hi : Inv s) (h : runO s i = some s') :
    (∀ j, j ≠ i → s'.b j = s.b j) ∧ ((s.b i).w ≠ .none → (s'.b i).w = (s.b i).w) := by
  have hr := (hi i).resume
  simp only [runO] at h
  split at h <;> rename_i hpc <;> simp only [Option.some.injEq, reduceCtorEq, Option.ite_none_right_eq_some] at h
  all_goals first
    | (subst h; refine ⟨fun j hj => by simp [Sys.set, upd_other _ _ hj], fun hw => ?_⟩
       exact absurd (by rw [hr hpc]; rfl) hw)
    | (obtain ⟨_, rfl⟩ := h; exact ⟨fun j hj => by simp [Sys.set, upd_other _ _ hj], fun _ => by simp [Sys.set]⟩)
    | (subst h; exact ⟨fun j hj => by simp [Sys.set, upd_other _ _ hj], fun _ => by simp [Sys.set]⟩)

theorem other_w {e s s'} (hi : Inv s) (h : AStep e s s') {i : Nat} (h1 : (s.b i).w ≠ .none) (h2 : (s.b i).w ≠ .user)
    (he : e ≠ .w i) : (s'.b i).w = (s.b i).w := by
  have hid : (s.b i).o ≠ .idle := fun h => h1 (by rw [(hi i).idle h]; rfl)
  cases h with
  | w j h => rw [(runW_frame h).1 i (fun e => he (e ▸ rfl))]
  | o j h =>
    by_cases e : i = j
    · subst e; exact (runO_frame hi h).2 h1
    · rw [(runO_frame hi h).1 i e]
  | ret j v h =>
    by_cases e : i = j
    · subst e; exact absurd h h2
    · simp [Sys.set, upd_other _ _ e]
  | create j h | noThread j h | noMem j h =>
    by_cases e : i = j
    · subst e; exact absurd h hid
    · simp [Sys.set, upd_other _ _ e]
  | join j h | detach j h =>
    by_cases e : i = j
    · subst e; simp [Sys.set]
    · simp [Sys.set, upd_other _ _ e]

theorem other_o {e s s'} (hi : Inv s) (h : AStep e s s') {i : Nat} (h1 : (s.b i).o ≠ .idle) (h2 : (s.b i).o ≠ .owns)
    (he : e ≠ .o i) : (s'.b i).o = (s.b i).o := by
  cases h with
  | w j h =>
    by_cases e : i = j
    · subst e; exact (runW_frame h).2
    · rw [(runW_frame h).1 i e]
  | o j h => rw [(runO_frame hi h).1 i (fun e => he (e ▸ rfl))]
  | ret j v h =>
    by_cases e : i = j
    · subst e; simp [Sys.set]
    · simp [Sys.set, upd_other _ _ e]
  | create j h | noThread j h | noMem j h =>
    by_cases e : i = j
    · subst e; exact absurd h h1
    · simp [Sys.set, upd_other _ _ e]
  | join j h | detach j h =>
    by_cases e : i = j
    · subst e; exact absurd h h2
    · simp [Sys.set, upd_other _ _ e]

/-! ## Infinite executions -/

variable {x : Exec AStep}

theorem inv_all (h0 : Inv (x.st 0)) : ∀ k, Inv (x.st k) := by
  intro k
  induction k with
  | zero => exact h0
  | succ k ih =>
    cases hl : x.lab k with
    | none => rw [x.idle k hl]; exact ih
    | some e => obtain ⟨N, h⟩ := (x.ok k e hl).step; exact inv_step ih h

/-- What stays until `e` happens, and makes `e` possible again and again, leads to `e`. -/
theorem next {e : Ev} (hs : x.Strong e) (P : Sys → Prop) {n : Nat} (h0 : P (x.st n))
    (stay : ∀ k e', n ≤ k → x.lab k = some e' → e' ≠ e → P (x.st k) → P (x.st (k + 1)))
    (en : (∀ k, n ≤ k → P (x.st k)) → ∀ i, n ≤ i → ∃ k, i ≤ k ∧ Enabled AStep e (x.st k)) :
    ∃ k, n ≤ k ∧ P (x.st k) ∧ AStep e (x.st k) (x.st (k + 1)) := by
  have upto : ∀ d, (∀ j, n ≤ j → j < n + d → x.lab j ≠ some e) → P (x.st (n + d)) := by
    intro d
    induction d with
    | zero => intro _; exact h0
    | succ d ih =>
      intro h
      have hp := ih fun j h1 h2 => h j h1 (by omega)
      rw [← Nat.add_assoc]
      cases hl : x.lab (n + d) with
      | none => rw [x.idle _ hl]; exact hp
      | some e' => exact stay _ e' (by omega) hl (fun he => h (n + d) (by omega) (by omega) (he ▸ hl)) hp
  by_cases hc : ∃ d, x.lab (n + d) = some e
  · have : ∃ d, x.lab (n + d) = some e ∧ ∀ j, j < d → x.lab (n + j) ≠ some e := by
      obtain ⟨d, hd⟩ := hc
      induction d using Nat.strongRecOn with
      | ind d ih =>
        by_cases hj : ∃ j, j < d ∧ x.lab (n + j) = some e
        · obtain ⟨j, h1, h2⟩ := hj; exact ih j h1 h2
        · exact ⟨d, hd, fun j h1 h2 => hj ⟨j, h1, h2⟩⟩
    obtain ⟨d, hd, hmin⟩ := this
    refine ⟨n + d, by omega, upto d fun j h1 h2 hl => hmin (j - n) (by omega) ?_, x.ok _ e hd⟩
    rw [show n + (j - n) = j by omega]; exact hl
  · exfalso
    have hn : ∀ j, n ≤ j → x.lab j ≠ some e := fun j h1 hl => hc ⟨j - n, by rw [show n + (j - n) = j by omega]; exact hl⟩
    have hall : ∀ k, n ≤ k → P (x.st k) := fun k hk => by
      have := upto (k - n) fun j h1 _ => hn j h1
      rwa [show n + (k - n) = k by omega] at this
    obtain ⟨k, hk, hl⟩ := hs (fun m => by
      obtain ⟨k, h1, h2⟩ := en hall (max n m) (by omega)
      exact ⟨k, by omega, h2⟩) n
    exact hn k hk hl

/-- the next step of a created thread -/
theorem next_w (h0 : Inv (x.st 0)) (hf : FairRun x) {i n : Nat} (h1 : ((x.st n).b i).w ≠ .none) (h2 : ((x.st n).b i).w ≠ .user)
    (en : (∀ k, n ≤ k → ((x.st k).b i).w = ((x.st n).b i).w) → ∀ j, n ≤ j → ∃ k, j ≤ k ∧ ∃ s', runW (x.st k) i = some s') :
    ∃ k, n ≤ k ∧ ((x.st k).b i).w = ((x.st n).b i).w ∧ runW (x.st k) i = some (x.st (k + 1)) := by
  obtain ⟨k, hk, hp, hs⟩ := next (hf.w i) (fun s => (s.b i).w = ((x.st n).b i).w) rfl
    (fun k e' _ hl he hp => by
      have := other_w (inv_all h0 k) (x.ok k e' hl) (i := i) (by rw [hp]; exact h1) (by rw [hp]; exact h2) he
      exact this.trans hp)
    (fun hall j hj => by
      obtain ⟨k, h1, s', h2⟩ := en hall j hj
      exact ⟨k, h1, s', .w i h2⟩)
  generalize hs' : x.st (k + 1) = s' at hs
  cases hs with
  | w i h => exact ⟨k, hk, hp, by rw [hs']; exact h⟩

/-- the next step of an owner -/
theorem next_o (h0 : Inv (x.st 0)) (hf : FairRun x) {i n : Nat} (h1 : ((x.st n).b i).o ≠ .idle) (h2 : ((x.st n).b i).o ≠ .owns)
    (en : (∀ k, n ≤ k → ((x.st k).b i).o = ((x.st n).b i).o) → ∀ j, n ≤ j → ∃ k, j ≤ k ∧ ∃ s', runO (x.st k) i = some s') :
    ∃ k, n ≤ k ∧ ((x.st k).b i).o = ((x.st n).b i).o ∧ runO (x.st k) i = some (x.st (k + 1)) := by
  obtain ⟨k, hk, hp, hs⟩ := next (hf.o i) (fun s => (s.b i).o = ((x.st n).b i).o) rfl
    (fun k e' _ hl he hp => by
      have := other_o (inv_all h0 k) (x.ok k e' hl) (i := i) (by rw [hp]; exact h1) (by rw [hp]; exact h2) he
      exact this.trans hp)
    (fun hall j hj => by
      obtain ⟨k, h1, s', h2⟩ := en hall j hj
      exact ⟨k, h1, s', .o i h2⟩)
  generalize hs' : x.st (k + 1) = s' at hs
  cases hs with
  | o i h => exact ⟨k, hk, hp, by rw [hs']; exact h⟩

/-- where a created thread never waits -/
def goesW : WPc → Bool
  | .none | .user | .dead | .acq => false
  | _ => true

theorem goesW_run {s : Sys} {i : Nat} (h : goesW (s.b i).w = true) : ∃ s', runW s i = some s' := by
  cases hc : (s.b i).w <;> rw [hc] at h <;> simp [goesW] at h <;> simp only [runW, hc] <;> exact ⟨_, rfl⟩

/-- where an owner never waits -/
def goesO : OPc → Bool
  | .idle | .owns | .joined _ | .detached | .einval | .refused _ | .jwait | .dwait | .dacq => false
  | _ => true

theorem goesO_run {s : Sys} {i : Nat} (h : goesO (s.b i).o = true) : ∃ s', runO s i = some s' := by
  cases hc : (s.b i).o <;> rw [hc] at h <;> simp [goesO] at h <;> simp only [runO, hc] <;> exact ⟨_, rfl⟩

theorem goes_w (h0 : Inv (x.st 0)) (hf : FairRun x) {i n : Nat} (h : goesW ((x.st n).b i).w = true) :
    ∃ k, n ≤ k ∧ ((x.st k).b i).w = ((x.st n).b i).w ∧ runW (x.st k) i = some (x.st (k + 1)) :=
  next_w h0 hf (by intro e; rw [e] at h; cases h) (by intro e; rw [e] at h; cases h)
    fun hall j hj => ⟨j, Nat.le_refl _, goesW_run (by rw [hall j hj]; exact h)⟩

theorem goes_o (h0 : Inv (x.st 0)) (hf : FairRun x) {i n : Nat} (h : goesO ((x.st n).b i).o = true) :
    ∃ k, n ≤ k ∧ ((x.st k).b i).o = ((x.st n).b i).o ∧ runO (x.st k) i = some (x.st (k + 1)) :=
  next_o h0 hf (by intro e; rw [e] at h; cases h) (by intro e; rw [e] at h; cases h)
    fun hall j hj => ⟨j, Nat.le_refl _, goesO_run (by rw [hall j hj]; exact h)⟩

/-- a thread that has terminated stays so -/
theorem dead_stays (h0 : Inv (x.st 0)) {i n : Nat} (h : ((x.st n).b i).w = .dead) : ∀ k, n ≤ k → ((x.st k).b i).w = .dead :=
  Fair.Exec.always (x := x) (P := fun s : Sys => (s.b i).w = .dead) h fun k e _ hl hk => by
    by_cases he : e = .w i
    · have := x.ok k e hl
      subst he
      generalize x.st (k + 1) = s' at this
      cases this with
      | w i h => simp [runW, hk] at h
    · exact (other_w (inv_all h0 k) (x.ok k e hl) (by simp [hk]) (by simp [hk]) he).trans hk

theorem rankW_drop {s s' : Sys} {i : Nat} (h : runW s i = some s') : rankW (s'.b i).w < rankW (s.b i).w := by
  simp only [runW] at h
  split at h <;> rename_i hpc <;> simp only [Option.some.injEq, reduceCtorEq, Option.ite_none_right_eq_some] at h
  all_goals first
    | (obtain ⟨_, rfl⟩ := h; simp [Sys.set, rankW, hpc]; done)
    | (subst h; simp [Sys.set, rankW, hpc]; done)
    | (subst h; simp only [Sys.set, upd_self, hpc]; split <;> simp [rankW])

theorem rankO_drop {s s' : Sys} {i : Nat} (h : runO s i = some s') : rankO (s'.b i).o < rankO (s.b i).o := by
  simp only [runO] at h
  split at h <;> rename_i hpc <;> simp only [Option.some.injEq, reduceCtorEq, Option.ite_none_right_eq_some] at h
  all_goals first
    | (obtain ⟨_, rfl⟩ := h; simp [Sys.set, rankO, hpc]; done)
    | (subst h; simp [Sys.set, rankO, hpc]; done)
    | (subst h; simp only [Sys.set, upd_self, hpc]; split <;> simp [rankO])

/-- inside the critical section of the start routine, of `pthread_detach` -/
def csW : WPc → Bool
  | .zero | .test | .close | .free | .rel => true
  | _ => false
def csO : OPc → Bool
  | .did | .dwait | .dclose | .dfree | .dset | .drel => true
  | _ => false

theorem csW_step {s s' : Sys} {i : Nat} (hc : csW (s.b i).w = true) (h : runW s i = some s') :
    s'.own = none ∨ csW (s'.b i).w = true := by
  cases hp : (s.b i).w <;> rw [hp] at hc <;> simp [csW] at hc <;> simp only [runW, hp, Option.some.injEq] at h <;> subst h <;>
    simp only [Sys.set, upd_self, csW, or_true, true_or]
  cases (s.b i).det <;> simp

theorem csO_step {s s' : Sys} {i : Nat} (hc : csO (s.b i).o = true) (h : runO s i = some s') :
    s'.own = none ∨ csO (s'.b i).o = true := by
  cases hp : (s.b i).o <;> rw [hp] at hc <;> simp [csO] at hc <;>
    simp only [runO, hp, Option.some.injEq, Option.ite_none_right_eq_some] at h <;> (first | subst h | obtain ⟨_, rfl⟩ := h) <;>
    simp only [Sys.set, upd_self, csO, or_true, true_or]
  cases (s.b i).tid <;> simp

/-- `ptw32_thread_reuse_lock` is free again and again. -/
theorem lock_free (h0 : Inv (x.st 0)) (hf : FairRun x) (n : Nat) : ∃ k, n ≤ k ∧ (x.st k).own = none := by
  have keyW : ∀ r n u, rankW ((x.st n).b u).w ≤ r → csW ((x.st n).b u).w = true → ∃ k, n ≤ k ∧ (x.st k).own = none := by
    intro r
    induction r with
    | zero => intro n u hr hc; cases hp : ((x.st n).b u).w <;> rw [hp] at hr hc <;> simp [rankW, csW] at hr hc
    | succ r ih =>
      intro n u hr hc
      obtain ⟨k, hk, hw, hs⟩ := goes_w h0 hf (i := u) (n := n) (by cases hp : ((x.st n).b u).w <;> rw [hp] at hc <;> first | rfl | cases hc)
      have hd := rankW_drop hs
      rw [hw] at hd
      rcases csW_step (by rw [hw]; exact hc) hs with h | h
      · exact ⟨k + 1, by omega, h⟩
      · obtain ⟨j, hj, ho⟩ := ih (k + 1) u (by omega) h
        exact ⟨j, by omega, ho⟩
  have keyO : ∀ r n u, rankO ((x.st n).b u).o ≤ r → csO ((x.st n).b u).o = true → ∃ k, n ≤ k ∧ (x.st k).own = none := by
    intro r
    induction r with
    | zero => intro n u hr hc; cases hp : ((x.st n).b u).o <;> rw [hp] at hr hc <;> simp [rankO, csO] at hr hc
    | succ r ih =>
      intro n u hr hc
      have hstep : ∃ k, n ≤ k ∧ ((x.st k).b u).o = ((x.st n).b u).o ∧ runO (x.st k) u = some (x.st (k + 1)) := by
        by_cases hp : ((x.st n).b u).o = .dwait
        · refine next_o h0 hf (by simp [hp]) (by simp [hp]) fun hall j hj => ?_
          have b := inv_all h0 n u
          have hdead : ∃ m, n ≤ m ∧ ((x.st m).b u).w = .dead := by
            have h5 := b.dwait hp
            have h6 := b.tid (by simp [hp]) (by simp [hp]) (by simp [hp]) (by simp [hp])
            have h7 := b.lw
            have h8 := b.started (by simp [hp]) (by simp [hp]) (by simp [hp]) (by simp [hp])
            have h9 := b.lo.2 (.inr (.inl hp))
            rw [h9] at h7
            have : ((x.st n).b u).w = .ret ∨ ((x.st n).b u).w = .dead := by
              cases hw : ((x.st n).b u).w <;> simp_all
            rcases this with hw | hw
            · obtain ⟨k, hk, hwk, hs⟩ := goes_w h0 hf (i := u) (n := n) (by rw [hw]; rfl)
              refine ⟨k + 1, by omega, ?_⟩
              rw [hw] at hwk
              simp only [runW, hwk, Option.some.injEq] at hs
              rw [← hs]; simp [Sys.set]
            · exact ⟨n, Nat.le_refl _, hw⟩
          obtain ⟨m, hm, hd⟩ := hdead
          refine ⟨max j m, by omega, ?_⟩
          have h1 := dead_stays h0 hd (max j m) (by omega)
          have h2 := hall (max j m) (by omega)
          simp only [runO, h2, hp, h1, if_true]; exact ⟨_, rfl⟩
        · exact goes_o h0 hf (by cases hq : ((x.st n).b u).o <;> rw [hq] at hc hp <;> first | exact absurd rfl hp | rfl | cases hc)
      obtain ⟨k, hk, hw, hs⟩ := hstep
      have hd := rankO_drop hs
      rw [hw] at hd
      rcases csO_step (by rw [hw]; exact hc) hs with h | h
      · exact ⟨k + 1, by omega, h⟩
      · obtain ⟨j, hj, ho⟩ := ih (k + 1) u (by omega) h
        exact ⟨j, by omega, ho⟩
  cases ho : (x.st n).own with
  | none => exact ⟨n, Nat.le_refl _, ho⟩
  | some a =>
    cases a with
    | w u =>
      refine keyW _ n u (Nat.le_refl _) ?_
      rcases (inv_all h0 n u).lw.1 ho with h | h | h | h | h <;> rw [h] <;> rfl
    | o u =>
      refine keyO _ n u (Nat.le_refl _) ?_
      rcases (inv_all h0 n u).lo.1 ho with h | h | h | h | h | h <;> rw [h] <;> rfl

/-- A thread whose start function has returned terminates. -/
theorem ends (h0 : Inv (x.st 0)) (hf : FairRun x) {i n : Nat} (hr : ((x.st n).b i).result ≠ none) :
    ∃ k, n ≤ k ∧ ((x.st k).b i).w = .dead := by
  have key : ∀ r n, rankW ((x.st n).b i).w ≤ r → r ≤ 8 → ∃ k, n ≤ k ∧ ((x.st k).b i).w = .dead := by
    intro r
    induction r with
    | zero => intro n h _; exact ⟨n, Nat.le_refl _, by cases hp : ((x.st n).b i).w <;> rw [hp] at h <;> first | rfl | (exfalso; simp only [rankW] at h; omega)⟩
    | succ r ih =>
      intro n h h8
      by_cases hd : ((x.st n).b i).w = .dead
      · exact ⟨n, Nat.le_refl _, hd⟩
      · have hstep : ∃ k, n ≤ k ∧ ((x.st k).b i).w = ((x.st n).b i).w ∧ runW (x.st k) i = some (x.st (k + 1)) := by
          by_cases hp : ((x.st n).b i).w = .acq
          · refine next_w h0 hf (by simp [hp]) (by simp [hp]) fun hall j hj => ?_
            obtain ⟨k, hk, ho⟩ := lock_free h0 hf j
            exact ⟨k, hk, by simp only [runW, hall k (by omega), hp, ho, if_true]; exact ⟨_, rfl⟩⟩
          · refine goes_w h0 hf ?_
            cases hq : ((x.st n).b i).w <;> rw [hq] at h hp hd <;>
              first | rfl | exact absurd rfl hp | exact absurd rfl hd | (simp [rankW] at h <;> omega)
        obtain ⟨k, hk, hw, hs⟩ := hstep
        have := rankW_drop hs
        rw [hw] at this
        obtain ⟨j, hj, ho⟩ := ih (k + 1) (by omega) (by omega)
        exact ⟨j, by omega, ho⟩
  refine key 8 n ?_ (Nat.le_refl _)
  have b := inv_all h0 n i
  have hw : ((x.st n).b i).w ≠ .none := by
    intro hw
    by_cases h1 : ((x.st n).b i).o = .idle
    · rw [b.idle h1] at hr; exact hr rfl
    by_cases h2 : ((x.st n).b i).o = .resume
    · rw [b.resume h2] at hr; exact hr rfl
    by_cases h3 : ((x.st n).b i).o = .cfree
    · rw [b.cfree h3] at hr; exact hr rfl
    by_cases h4 : ∃ r, ((x.st n).b i).o = .refused r
    · obtain ⟨r, h4⟩ := h4
      rcases b.refused r h4 with e | e <;> rw [e] at hr <;> exact hr rfl
    · exact b.started h1 h2 h3 (fun r h => h4 ⟨r, h⟩) hw
  have hres := b.res0
  cases hp : ((x.st n).b i).w <;> simp [rankW] <;> simp_all

/-! ## The theorems -/

/-- **C64 (liveness).** `pthread_create` returns. -/
theorem create_returns {N : Nat} (hr0 : Reach N (x.st 0)) (hf : FairRun x) {i n : Nat}
    (h : ((x.st n).b i).o = .resume ∨ ((x.st n).b i).o = .cfree) :
    ∃ k, n ≤ k ∧ (((x.st k).b i).o = .owns ∨ ((x.st k).b i).o = .refused (-1)) := by
  have h0 := inv_reach hr0
  obtain ⟨k, hk, hw, hs⟩ := goes_o h0 hf (i := i) (n := n) (by rcases h with h | h <;> rw [h] <;> rfl)
  refine ⟨k + 1, by omega, ?_⟩
  rcases h with h | h <;> rw [h] at hw <;> simp only [runO, hw, Option.some.injEq] at hs <;> rw [← hs] <;> simp [Sys.set]

/-- inside `pthread_detach`, inside `pthread_join` -/
def inDetach : OPc → Bool
  | .dtest | .dacq | .did | .dwait | .dclose | .dfree | .dset | .drel => true
  | _ => false
def inJoin : OPc → Bool
  | .jtest | .jwait | .jclose | .jread | .jfree _ => true
  | _ => false

/-- **C64 (liveness).** `pthread_detach` returns, whether the thread's start function ever does or not. -/
theorem detach_returns {N : Nat} (hr0 : Reach N (x.st 0)) (hf : FairRun x) {i n : Nat} (h : inDetach ((x.st n).b i).o = true) :
    ∃ k, n ≤ k ∧ ((x.st k).b i).o = .detached := by
  have h0 := inv_reach hr0
  have key : ∀ r n, rankO ((x.st n).b i).o ≤ r → inDetach ((x.st n).b i).o = true → ∃ k, n ≤ k ∧ ((x.st k).b i).o = .detached := by
    intro r
    induction r with
    | zero => intro n hr h; cases hp : ((x.st n).b i).o <;> rw [hp] at hr h <;> simp [rankO, inDetach] at hr h
    | succ r ih =>
      intro n hr h
      have hstep : ∃ k, n ≤ k ∧ ((x.st k).b i).o = ((x.st n).b i).o ∧ runO (x.st k) i = some (x.st (k + 1)) := by
        by_cases ha : ((x.st n).b i).o = .dacq
        · refine next_o h0 hf (by simp [ha]) (by simp [ha]) fun hall j hj => ?_
          obtain ⟨k, hk, ho⟩ := lock_free h0 hf j
          exact ⟨k, hk, by simp only [runO, hall k (by omega), ha, ho, if_true]; exact ⟨_, rfl⟩⟩
        by_cases hp : ((x.st n).b i).o = .dwait
        · refine next_o h0 hf (by simp [hp]) (by simp [hp]) fun hall j hj => ?_
          -- the lock is held by this owner, and is free again some time: only by its next step
          exfalso
          obtain ⟨k, hk, ho⟩ := lock_free h0 hf j
          have := (inv_all h0 k i).lo.2 (.inr (.inl (by rw [hall k (by omega), hp])))
          rw [ho] at this; cases this
        · refine goes_o h0 hf ?_
          cases hq : ((x.st n).b i).o <;> rw [hq] at h ha hp <;> first | exact absurd rfl ha | exact absurd rfl hp | rfl | cases h
      obtain ⟨k, hk, hw, hs⟩ := hstep
      have hd := rankO_drop hs
      rw [hw] at hd
      have hne := (inv_all h0 (k + 1) i).einval
      have hcase : ((x.st (k + 1)).b i).o = .detached ∨ inDetach ((x.st (k + 1)).b i).o = true := by
        rw [← hw] at h
        generalize x.st (k + 1) = s' at hs hne
        cases hp : ((x.st k).b i).o <;> rw [hp] at h <;> simp [inDetach] at h <;>
          simp only [runO, hp, Option.some.injEq, Option.ite_none_right_eq_some] at hs <;>
          (first | subst hs | obtain ⟨_, rfl⟩ := hs) <;>
          simp only [Sys.set, upd_self, inDetach, or_true, true_or] at hne ⊢
        · cases hd : ((x.st k).b i).det <;> simp_all [inDetach]
        · cases hd : ((x.st k).b i).tid <;> simp_all [inDetach]
      rcases hcase with h | h
      · exact ⟨k + 1, by omega, h⟩
      · obtain ⟨j, hj, hd⟩ := ih (k + 1) (by omega) h
        exact ⟨j, by omega, hd⟩
  exact key _ n (Nat.le_refl _) h

/-- **C64 (liveness).** `pthread_join` returns, with the result, if the start function of *that* thread returns at some time:
other threads may run for ever. -/
theorem join_returns {N : Nat} (hr0 : Reach N (x.st 0)) (hf : FairRun x) {i n m : Nat} (h : inJoin ((x.st n).b i).o = true)
    (hr : ((x.st m).b i).result ≠ none) :
    ∃ k v, n ≤ k ∧ ((x.st k).b i).o = .joined v ∧ ((x.st k).b i).result = some v := by
  have h0 := inv_reach hr0
  obtain ⟨d, hd, hdead⟩ := ends h0 hf hr
  have dead := dead_stays h0 hdead
  have key : ∀ r n, rankO ((x.st n).b i).o ≤ r → inJoin ((x.st n).b i).o = true → ∃ k v, n ≤ k ∧ ((x.st k).b i).o = .joined v := by
    intro r
    induction r with
    | zero => intro n hr h; cases hp : ((x.st n).b i).o <;> rw [hp] at hr h <;> simp [rankO, inJoin] at hr h
    | succ r ih =>
      intro n hr h
      have hstep : ∃ k, n ≤ k ∧ ((x.st k).b i).o = ((x.st n).b i).o ∧ runO (x.st k) i = some (x.st (k + 1)) := by
        by_cases hp : ((x.st n).b i).o = .jwait
        · refine next_o h0 hf (by simp [hp]) (by simp [hp]) fun hall j hj => ?_
          have h1 := dead (max j d) (by omega)
          have h2 := hall (max j d) (by omega)
          exact ⟨max j d, by omega, by simp only [runO, h2, hp, h1, if_true]; exact ⟨_, rfl⟩⟩
        · refine goes_o h0 hf ?_
          cases hq : ((x.st n).b i).o <;> rw [hq] at h hp <;> first | exact absurd rfl hp | rfl | cases h
      obtain ⟨k, hk, hw, hs⟩ := hstep
      have hd := rankO_drop hs
      rw [hw] at hd
      have hne := (inv_all h0 (k + 1) i).einval
      have hcase : (∃ v, ((x.st (k + 1)).b i).o = .joined v) ∨ inJoin ((x.st (k + 1)).b i).o = true := by
        rw [← hw] at h
        generalize x.st (k + 1) = s' at hs hne
        cases hp : ((x.st k).b i).o <;> rw [hp] at h <;> simp [inJoin] at h <;>
          simp only [runO, hp, Option.some.injEq, Option.ite_none_right_eq_some] at hs <;>
          (first | subst hs | obtain ⟨_, rfl⟩ := hs) <;>
          simp only [Sys.set, upd_self, inJoin, or_true] at hne ⊢
        · cases hd : ((x.st k).b i).det <;> simp_all [inJoin]
        · exact .inl ⟨_, rfl⟩
      rcases hcase with ⟨v, h⟩ | h
      · exact ⟨k + 1, v, by omega, h⟩
      · obtain ⟨j, v, hj, hd⟩ := ih (k + 1) (by omega) h
        exact ⟨j, v, by omega, hd⟩
  obtain ⟨k, v, hk, hj⟩ := key _ n (Nat.le_refl _) h
  refine ⟨k, v, hk, hj, ?_⟩
  have b := inv_all h0 k i
  have hv := b.jval v (.inr hj)
  have hw := b.odead (.inr (.inr (.inr (.inl ⟨v, hj⟩))))
  rw [hv]
  exact b.res2 (by simp [hw]) (by simp [hw]) (by simp [hw]) (by simp [hw])

/-- **C64 (liveness).** A detached thread whose start function returns at some time leaves nothing behind: from some time on its
block is freed, once, and its handle closed, once. -/
theorem detached_released {N : Nat} (hr0 : Reach N (x.st 0)) (hf : FairRun x) {i n m : Nat} (h : ((x.st n).b i).o = .detached)
    (hr : ((x.st m).b i).result ≠ none) :
    ∃ k, ∀ j, k ≤ j → ((x.st j).b i).live = false ∧ ((x.st j).b i).open_ = false ∧ ((x.st j).b i).frees = 1 ∧ ((x.st j).b i).closes = 1 := by
  have h0 := inv_reach hr0
  obtain ⟨d, hd, hdead⟩ := ends h0 hf hr
  have dead := dead_stays h0 hdead
  have det : ∀ k, n ≤ k → ((x.st k).b i).o = .detached :=
    Fair.Exec.always (x := x) (P := fun s : Sys => (s.b i).o = .detached) h fun k e _ hl hk => by
      by_cases he : e = .o i
      · have := x.ok k e hl
        subst he
        generalize x.st (k + 1) = s' at this
        cases this with
        | o i h => simp [runO, hk] at h
      · exact (other_o (inv_all h0 k) (x.ok k e hl) (by simp [hk]) (by simp [hk]) he).trans hk
  refine ⟨max d n, fun j hj => ?_⟩
  have h1 := dead j (by omega)
  have h2 := det j (by omega)
  have b := inv_all h0 j i
  obtain ⟨⟩ := b
  grind

/-! ## A fair execution: thread 0 is detached while its start function runs, and runs for ever; thread 1 is joined -/

def exec1 (e : Ev) (s : Sys) : Option Sys := exec 2 [e] s

theorem exec1_sound (e : Ev) (s u : Sys) (h : exec1 e s = some u) : AStep e s u := by
  simp only [exec1, exec, Option.bind_eq_some_iff, Option.some.injEq] at h
  obtain ⟨s1, h1, rfl⟩ := h
  cases e <;> simp only [Option.ite_none_right_eq_some, Option.some.injEq] at h1
  · exact .w _ h1.2
  · exact .o _ h1.2
  · obtain ⟨h1, rfl⟩ := h1; exact .ret _ _ h1.2
  · obtain ⟨h1, rfl⟩ := h1; exact .create _ h1.2
  · obtain ⟨h1, rfl⟩ := h1; exact .noThread _ h1.2
  · obtain ⟨h1, rfl⟩ := h1; exact .noMem _ h1.2
  · obtain ⟨h1, rfl⟩ := h1; exact .join _ h1.2
  · obtain ⟨h1, rfl⟩ := h1; exact .detach _ h1.2

theorem runs_exec (es : List Ev) : ∀ s, Fair.runs exec1 es s = exec 2 es s := by
  induction es with
  | nil => intro s; rfl
  | cons e es ih =>
    intro s
    simp only [Fair.runs, exec1, exec, Option.bind_assoc]
    congr 1
    funext t
    simp [ih]

def demo2 : List Ev :=
  [.create 0, .o 0, .create 1, .o 1, .w 0, .join 1, .detach 0, .o 1, .o 0, .o 0, .o 0, .w 1, .ret 1 7, .w 1,
   .o 0, .o 0, .w 1, .w 1, .w 1, .w 1, .w 1, .o 1, .o 1, .o 1, .o 1]

/-- The hypotheses of the theorems are met: a fair execution from the initial state in which thread 0 never ends, its owner is
inside `pthread_detach` at time 8, and the owner of thread 1 is inside `pthread_join` at time 7. -/
example : ∃ x : Exec AStep, Reach 2 (x.st 0) ∧ FairRun x ∧ inDetach ((x.st 8).b 0).o = true ∧ inJoin ((x.st 7).b 1).o = true ∧
    ((x.st 25).b 1).result ≠ none ∧ ((x.st 25).b 0).w = .user ∧ ((x.st 25).b 0).o = .detached ∧ ((x.st 25).b 1).o = .joined 7 := by
  obtain ⟨u, hu⟩ : ∃ u, exec 2 demo2 Sys.init = some u := by
    apply Option.isSome_iff_exists.1; decide +kernel
  have hru : Reach 2 u := exec_reach .init hu
  obtain ⟨x, h0, hend, hlab, hst, hstrong⟩ := Fair.exists_finite (step := AStep) id exec1 exec1_sound ((runs_exec demo2 Sys.init).trans hu)
  have at_ : ∀ k, x.st k = (exec 2 (demo2.take k) Sys.init).getD Sys.init := fun k => by rw [hst k, runs_exec]
  have e25 : x.st 25 = u := hend 25 (by decide)
  have w0 : (u.b 0).w = .user := by
    have : (exec 2 demo2 Sys.init).map (fun s => (s.b 0).w) = some .user := by decide +kernel
    simpa [hu] using this
  have o0 : (u.b 0).o = .detached := by
    have : (exec 2 demo2 Sys.init).map (fun s => (s.b 0).o) = some .detached := by decide +kernel
    simpa [hu] using this
  have w1 : (u.b 1).w = .dead := by
    have : (exec 2 demo2 Sys.init).map (fun s => (s.b 1).w) = some .dead := by decide +kernel
    simpa [hu] using this
  have o1 : (u.b 1).o = .joined 7 := by
    have : (exec 2 demo2 Sys.init).map (fun s => (s.b 1).o) = some (.joined 7) := by decide +kernel
    simpa [hu] using this
  have r1 : (u.b 1).result = some 7 := by
    have : (exec 2 demo2 Sys.init).map (fun s => (s.b 1).result) = some (some 7) := by decide +kernel
    simpa [hu] using this
  have noW : ∀ i, runW u i = none := by
    intro i
    rcases i with _ | _ | i
    · simp only [runW, w0]
    · simp only [runW, w1]
    · simp only [runW, outside hru (show 2 ≤ i + 2 by omega), Blk.init]
  have noO : ∀ i, runO u i = none := by
    intro i
    rcases i with _ | _ | i
    · simp only [runO, o0]
    · simp only [runO, o1]
    · simp only [runO, outside hru (show 2 ≤ i + 2 by omega), Blk.init]
  refine ⟨x, by rw [h0]; exact .init, ⟨fun i => hstrong _ fun v hv => ?_, fun i => hstrong _ fun v hv => ?_⟩, ?_, ?_, ?_, ?_, ?_, ?_⟩
  · cases hv with
    | w i h => rw [noW] at h; cases h
  · cases hv with
    | o i h => rw [noO] at h; cases h
  · rw [at_ 8]
    have : (exec 2 (demo2.take 8) Sys.init).map (fun s => inDetach (s.b 0).o) = some true := by decide +kernel
    obtain ⟨t, ht⟩ : ∃ t, exec 2 (demo2.take 8) Sys.init = some t := by apply Option.isSome_iff_exists.1; decide +kernel
    rw [ht] at this ⊢; simpa using this
  · rw [at_ 7]
    have : (exec 2 (demo2.take 7) Sys.init).map (fun s => inJoin (s.b 1).o) = some true := by decide +kernel
    obtain ⟨t, ht⟩ : ∃ t, exec 2 (demo2.take 7) Sys.init = some t := by apply Option.isSome_iff_exists.1; decide +kernel
    rw [ht] at this ⊢; simpa using this
  · rw [e25, r1]; simp
  · rw [e25, w0]
  · rw [e25, o0]
  · rw [e25, o1]

end Verif.ThreadLife
