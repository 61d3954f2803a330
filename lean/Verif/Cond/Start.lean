import Verif.Cond.Props
/-!
# C63: what the condition variable does when its counters start with what was in memory

`pthread_cond_init` (pthread_win_simple.c:170-175) sets the semaphore and the lock, but not `mWaiting`, `mWake` and
`mGeneration`; nobody else does.  In memory from `malloc` or on the stack they hold anything.  If `mWaiting` and `mWake` happen to
be equal (all zero, for example) everything proved about C63 holds; if `mWake` is larger by at least the number of threads, no
signal and no broadcast ever wakes anybody.  (The counters are `size_t`; below, `mWaiting + N ≤ mWake` keeps them from wrapping.)
-/
namespace Verif.Cond
open Verif.Tot

/-- A condition variable after `pthread_cond_init` in memory that held `w`, `k`, `g` at `mWaiting`, `mWake`, `mGeneration`. -/
def start (w k g : Nat) : Sys := { Sys.init with
  waiting := w
  wake := k
  gen := g }

inductive ReachFrom (N : Nat) (s0 : Sys) : Sys → Prop where
  | init : ReachFrom N s0 s0
  | step {s s' : Sys} : ReachFrom N s0 s → Step N s s' → ReachFrom N s0 s'

/-! ## A large `mWake` -/

/-- nobody has been woken or will be -/
def deaf : Pc → Prop
  | .c3 _ | .c4 _ | .c5 => False
  | .post n _ => n = 0
  | _ => True

structure Deaf (N w k : Nat) (s : Sys) : Prop where
  waiting : s.waiting = w + tot N wW s.th
  wake : s.wake = k
  sem : s.sem = 0
  woken : s.woken = 0
  promised : s.promised = 0
  th : ∀ t, deaf (s.th t)

theorem tot_wW_le (N : Nat) (f : Nat → Pc) : tot N wW f ≤ N := by
  induction N with
  | zero => simp [tot_zero]
  | succ n ih =>
    rw [tot_succ]
    have : wW (f n) ≤ 1 := by cases f n <;> simp [wW]
    omega

theorem deaf_go {N w k : Nat} {s s' : Sys} (h : Deaf N w k s) {t : Nat} {c : Pc} (ht : t < N) (hth : s'.th = upd s.th t c)
    (hw : s'.waiting + wW (s.th t) = s.waiting + wW c) (hk : s'.wake = s.wake) (hs : s'.sem = 0) (ho : s'.woken = s.woken)
    (hp : s'.promised = s.promised) (hc : deaf c) : Deaf N w k s' := by
  refine ⟨?_, hk.trans h.wake, hs, ho.trans h.woken, hp.trans h.promised, fun j => ?_⟩
  · have := tot_upd ht wW s.th c
    have := h.waiting
    rw [hth]; omega
  · rw [hth]; unfold upd; split
    · exact hc
    · exact h.th j

theorem deaf_step {N w k : Nat} (hk : w + N ≤ k) {s s' : Sys} (h : Deaf N w k s) (st : Step N s s') : Deaf N w k s' := by
  have hle : ¬ s.waiting > s.wake := by
    have := h.waiting; have := h.wake; have := tot_wW_le N s.th; omega
  cases st with
  | lock t ht e => exact deaf_go h ht rfl (by simp [e, wW, Sys.go]) rfl h.sem rfl rfl trivial
  | unlock t ht e => exact deaf_go h ht rfl (by simp [e, wW, Sys.go]) rfl h.sem rfl rfl trivial
  | wait t ht e => exact deaf_go h ht rfl (by simp [e, wW, Sys.go]) rfl h.sem rfl rfl trivial
  | notifyIdle t all ht e => exact deaf_go h ht rfl (by simp [e, wW, Sys.go]) rfl h.sem rfl rfl trivial
  | notifyHeld t all ht e => exact deaf_go h ht rfl (by simp [e, wW, Sys.go]) rfl h.sem rfl rfl trivial
  | run t ht e =>
    have hd := h.th t
    cases hpc : s.th t with
    | idle => simp [run, hpc] at e
    | held => simp [run, hpc] at e
    | want =>
      simp only [run, hpc] at e
      split at e
      · cases e; exact deaf_go h ht rfl (by simp [hpc, wW, Sys.go]) rfl h.sem rfl rfl trivial
      · simp at e
    | c0 =>
      simp only [run, hpc] at e; cases e
      exact deaf_go h ht rfl (by simp [hpc, wW, Sys.go]) rfl h.sem rfl rfl trivial
    | c1 g =>
      simp only [run, hpc] at e; cases e
      exact deaf_go h ht rfl (by simp [hpc, wW, Sys.go]) rfl h.sem rfl rfl trivial
    | c2 g => simp [run, hpc, h.sem] at e
    | c3 g => rw [hpc] at hd; exact hd.elim
    | c4 g => rw [hpc] at hd; exact hd.elim
    | c5 => rw [hpc] at hd; exact hd.elim
    | sig all b =>
      cases all <;> simp only [run, hpc, hle, if_false] at e <;> cases e <;>
        exact deaf_go h ht rfl (by simp [hpc, wW, Sys.go]) rfl h.sem rfl rfl rfl
    | post n b =>
      rw [hpc] at hd
      have hn : n = 0 := hd
      subst hn
      simp only [run, hpc] at e; cases e
      refine deaf_go h ht rfl ?_ rfl (by show s.sem + 0 = 0; rw [h.sem]) rfl rfl ?_
      · cases b <;> simp [hpc, wW, Sys.go, back]
      · cases b <;> trivial

theorem deaf_reach {N w k g : Nat} (hk : w + N ≤ k) {s : Sys} (h : ReachFrom N (start w k g) s) : Deaf N w k s := by
  induction h with
  | init =>
    refine ⟨?_, rfl, rfl, rfl, rfl, fun _ => trivial⟩
    show w = w + tot N wW Sys.init.th
    have : tot N wW Sys.init.th = 0 := tot_eq_zero.2 (fun t _ => rfl)
    omega
  | step _ st ih => exact deaf_step hk ih st

/-- **Finding (C63).** If the memory of a condition variable held an `mWake` that exceeds `mWaiting` by the number of threads or
more, then whatever the threads do, no wake-up is ever promised and no `pthread_cond_wait` is ever woken … -/
theorem garbage_wakes_nobody {N w k g : Nat} (hk : w + N ≤ k) {s : Sys} (h : ReachFrom N (start w k g) s) :
    s.woken = 0 ∧ s.promised = 0 ∧ s.sem = 0 :=
  ⟨(deaf_reach hk h).woken, (deaf_reach hk h).promised, (deaf_reach hk h).sem⟩

/-- … a thread that waits stays in `WaitForSingleObject` for ever … -/
theorem garbage_waits_for_ever {N w k g : Nat} (hk : w + N ≤ k) {s s' : Sys} (h : ReachFrom N (start w k g) s) {t x : Nat}
    (ht : s.th t = .c2 x) (h' : ReachFrom N s s') : s'.th t = .c2 x := by
  have all : ∀ {s'}, ReachFrom N s s' → ReachFrom N (start w k g) s' := by
    intro s' h'
    induction h' with
    | init => exact h
    | step _ st ih => exact .step ih st
  have keep : ∀ (s1 s2 : Sys) (j : Nat) (c : Pc), s1.th t = .c2 x → s1.th j ≠ .c2 x → s2.th = upd s1.th j c → s2.th t = .c2 x := by
    intro s1 s2 j c h1 h2 h3
    rw [h3, upd_other]
    · exact h1
    · intro e; exact h2 (e ▸ h1)
  induction h' with
  | init => exact ht
  | @step s1 s2 hr st ih =>
    have d := deaf_reach hk (all hr)
    cases st with
    | lock j hj e => exact keep s1 _ j _ ih (by simp [e]) rfl
    | unlock j hj e => exact keep s1 _ j _ ih (by simp [e]) rfl
    | wait j hj e => exact keep s1 _ j _ ih (by simp [e]) rfl
    | notifyIdle j all hj e => exact keep s1 _ j _ ih (by simp [e]) rfl
    | notifyHeld j all hj e => exact keep s1 _ j _ ih (by simp [e]) rfl
    | run j hj e =>
      have hne : s1.th j ≠ .c2 x := by
        intro e'
        simp [run, e', d.sem] at e
      obtain ⟨c, hc⟩ : ∃ c, s2.th = upd s1.th j c := by
        revert e
        simp only [run]
        split <;> (try split) <;> (try split) <;> intro e <;> cases e <;> exact ⟨_, rfl⟩
      exact keep s1 s2 j c ih hne hc

/-! ## Equal counters -/

def shiftPc (g : Nat) : Pc → Pc
  | .c1 x => .c1 (x + g)
  | .c2 x => .c2 (x + g)
  | .c3 x => .c3 (x + g)
  | .c4 x => .c4 (x + g)
  | p => p

@[simp] theorem shiftPc_idle (g : Nat) : shiftPc g .idle = .idle := rfl
@[simp] theorem shiftPc_held (g : Nat) : shiftPc g .held = .held := rfl
@[simp] theorem shiftPc_want (g : Nat) : shiftPc g .want = .want := rfl
@[simp] theorem shiftPc_c0 (g : Nat) : shiftPc g .c0 = .c0 := rfl
@[simp] theorem shiftPc_c5 (g : Nat) : shiftPc g .c5 = .c5 := rfl
@[simp] theorem shiftPc_c1 (g x : Nat) : shiftPc g (.c1 x) = .c1 (x + g) := rfl
@[simp] theorem shiftPc_c2 (g x : Nat) : shiftPc g (.c2 x) = .c2 (x + g) := rfl
@[simp] theorem shiftPc_c3 (g x : Nat) : shiftPc g (.c3 x) = .c3 (x + g) := rfl
@[simp] theorem shiftPc_c4 (g x : Nat) : shiftPc g (.c4 x) = .c4 (x + g) := rfl
@[simp] theorem shiftPc_sig (g : Nat) (a b : Bool) : shiftPc g (.sig a b) = .sig a b := rfl
@[simp] theorem shiftPc_post (g n : Nat) (b : Bool) : shiftPc g (.post n b) = .post n b := rfl

/-- The same state with `c` more in `mWaiting` and `mWake`, and generations counted from `g`. -/
def shift (c g : Nat) (s : Sys) : Sys := { s with
  waiting := s.waiting + c
  wake := s.wake + c
  gen := s.gen + g
  th := fun t => shiftPc g (s.th t) }

theorem shift_upd (g : Nat) (f : Nat → Pc) (t : Nat) (p : Pc) :
    (fun j => shiftPc g (upd f t p j)) = upd (fun j => shiftPc g (f j)) t (shiftPc g p) := by
  funext j; unfold upd; split <;> rfl

set_option linter.unusedSimpArgs false in
theorem shift_run {N c g : Nat} {s : Sys} (i : Inv N s) {t : Nat} (ht : t < N) : run (shift c g s) t = (run s t).map (shift c g) := by
  have hw : ∀ x, s.th t = .c3 x → s.wake ≠ 0 := by
    intro x e
    have h1 := i.wake
    have h2 := tot_le ht wT s.th
    rw [e] at h2; simp only [wT] at h2; omega
  have hle : s.waiting + c > s.wake + c ↔ s.waiting > s.wake := by omega
  have hwa : ∀ x, s.th t = .c3 x → 1 ≤ s.waiting := by
    intro x e
    have h1 := i.waiting
    have h2 := tot_le ht wW s.th
    rw [e] at h2; simp only [wW] at h2; omega
  have hth : (shift c g s).th t = shiftPc g (s.th t) := rfl
  cases hpc : s.th t with
  | idle => simp [run, hth, hpc]
  | held => simp [run, hth, hpc]
  | want =>
    simp only [run, hth, hpc, shiftPc_idle, shiftPc_held, shiftPc_want, shiftPc_c0, shiftPc_c1, shiftPc_c2, shiftPc_c3, shiftPc_c4, shiftPc_c5, shiftPc_sig, shiftPc_post, shift]
    by_cases e : s.um = none <;> simp [e, shift, Sys.go, shift_upd]
  | c0 =>
    simp [run, hth, hpc, shift, Sys.go, shift_upd]; omega
  | c1 x => simp [run, hth, hpc, shift, Sys.go, shift_upd]
  | c2 x =>
    simp only [run, hth, hpc, shiftPc_idle, shiftPc_held, shiftPc_want, shiftPc_c0, shiftPc_c1, shiftPc_c2, shiftPc_c3, shiftPc_c4, shiftPc_c5, shiftPc_sig, shiftPc_post, shift]
    by_cases e : s.sem = 0 <;> simp [e, shift, Sys.go, shift_upd]
  | c3 x =>
    have a := hw x hpc
    have b := hwa x hpc
    have a' : s.wake + c ≠ 0 := by omega
    have e1 : s.wake + c - 1 = s.wake - 1 + c := by omega
    have e2 : s.waiting + c - 1 = s.waiting - 1 + c := by omega
    simp only [run, hth, hpc, shiftPc_idle, shiftPc_held, shiftPc_want, shiftPc_c0, shiftPc_c1, shiftPc_c2, shiftPc_c3, shiftPc_c4, shiftPc_c5, shiftPc_sig, shiftPc_post, shift]
    by_cases e : s.gen = x
    · simp [a, e, shift, Sys.go, shift_upd]
    · have e' : s.gen + g ≠ x + g := by omega
      simp [a, a', e, e', e1, e2, shift, Sys.go, shift_upd]
  | c4 x => simp [run, hth, hpc, shift, Sys.go, shift_upd]
  | c5 =>
    simp only [run, hth, hpc, shiftPc_idle, shiftPc_held, shiftPc_want, shiftPc_c0, shiftPc_c1, shiftPc_c2, shiftPc_c3, shiftPc_c4, shiftPc_c5, shiftPc_sig, shiftPc_post, shift]
    by_cases e : s.um = none <;> simp [e, shift, Sys.go, shift_upd]
  | sig all b =>
    cases all <;> simp only [run, hth, hpc, shiftPc_idle, shiftPc_held, shiftPc_want, shiftPc_c0, shiftPc_c1, shiftPc_c2, shiftPc_c3, shiftPc_c4, shiftPc_c5, shiftPc_sig, shiftPc_post, shift, hle]
    · by_cases e : s.waiting > s.wake <;> simp [e, shift, Sys.go, shift_upd] <;> omega
    · by_cases e : s.waiting > s.wake
      · have e1 : s.waiting + c - (s.wake + c) = s.waiting - s.wake := by omega
        simp [e, e1, shift, Sys.go, shift_upd]; omega
      · simp [e, shift, Sys.go, shift_upd]
  | post n b =>
    cases b <;> simp [run, hth, hpc, shift, Sys.go, shift_upd, back]

theorem shiftPc_eq {g : Nat} {p q : Pc} (h : shiftPc g p = q) (hq : q = .idle ∨ q = .held) : p = q := by
  rcases hq with rfl | rfl <;> cases p <;> simp [shiftPc] at h <;> rfl

/-- **C63 (what `pthread_cond_init` would have to do).** If `mWaiting` and `mWake` hold the same number, whatever `mGeneration` is,
every state that can be reached is one of a condition variable that started with zeros, with `c` more in both counters and `g` more in
the generations: all that is proved about C63 holds. -/
theorem equal_counters {N c g : Nat} {s : Sys} (h : ReachFrom N (start c c g) s) : ∃ s0, Reach N s0 ∧ s = shift c g s0 := by
  induction h with
  | init => exact ⟨Sys.init, .init, by simp [start, shift, Sys.init]⟩
  | step _ st ih =>
    obtain ⟨s0, hr, rfl⟩ := ih
    cases st with
    | lock t ht e =>
      exact ⟨_, hr.step (.lock t ht (shiftPc_eq (g := g) e (.inl rfl))), by simp [shift, Sys.go, shift_upd]⟩
    | unlock t ht e =>
      exact ⟨_, hr.step (.unlock t ht (shiftPc_eq (g := g) e (.inr rfl))), by simp [shift, Sys.go, shift_upd]⟩
    | wait t ht e =>
      exact ⟨_, hr.step (.wait t ht (shiftPc_eq (g := g) e (.inr rfl))), by simp [shift, Sys.go, shift_upd]⟩
    | notifyIdle t all ht e =>
      exact ⟨_, hr.step (.notifyIdle t all ht (shiftPc_eq (g := g) e (.inl rfl))), by simp [shift, Sys.go, shift_upd]⟩
    | notifyHeld t all ht e =>
      exact ⟨_, hr.step (.notifyHeld t all ht (shiftPc_eq (g := g) e (.inr rfl))), by simp [shift, Sys.go, shift_upd]⟩
    | run t ht e =>
      rw [shift_run (inv_reach hr) ht] at e
      cases hs : run s0 t with
      | none => simp [hs] at e
      | some s1 =>
        simp [hs] at e
        exact ⟨s1, hr.step (.run t ht hs), e.symm⟩

/-- Not vacuous: one thread waits on a condition variable whose memory held 5, 9 and 3; another one broadcasts; the first stays. -/
example : (exec 2 (blockEv 0 ++ [.notify 1 true, .run 1, .run 1]) (start 5 9 3)).map (fun s => (s.th 0, s.th 1, s.woken)) =
    some (.c2 3, .idle, 0) := by decide +kernel

/-- Not vacuous: with 5, 5 and 3 it is woken. -/
example : (exec 2 (blockEv 0 ++ [.notify 1 true, .run 1, .run 1] ++ wokenEv 0) (start 5 5 3)).map
    (fun s => (s.woken, s.waiting, s.wake)) = some (1, 5, 5) := by decide +kernel

/-- **Finding (C63).** With `mWaiting` larger than `mWake` a signal that nobody waits for is kept, and a thread that waits later
runs around its loop for ever, taking the token and giving it back: here thread 0 comes back to where it was. -/
theorem garbage_spins : ((exec 2 ([.notify 1 false, .run 1, .run 1] ++ blockEv 0) (start 1 0 0)).bind
      fun s => (exec 2 [.run 0, .run 0, .run 0] s).map fun s' =>
        (decide (s.th 0 = .c2 1 ∧ s'.th 0 = .c2 1 ∧ s.sem = 1 ∧ s'.sem = 1 ∧ s.wake = s'.wake ∧ s.waiting = s'.waiting ∧ s.gen = s'.gen))) =
    some true := by decide +kernel

end Verif.Cond
