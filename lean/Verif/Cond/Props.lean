import Verif.Cond.Model

/-! # The condition variable of the simple Windows pthread layer (C63) -/
namespace Verif.Cond
open Verif.Tot

/-- counted in `mWaiting` -/
def wW : Pc → Nat
  | .c1 _ | .c2 _ | .c3 _ | .c4 _ => 1
  | _ => 0
/-- semaphore tokens in the hands of a thread -/
def wT : Pc → Nat
  | .c3 _ | .c4 _ => 1
  | .post n _ => n
  | _ => 0
/-- waiters of an older generation -/
def wE (gen : Nat) : Pc → Nat
  | .c1 g | .c2 g | .c3 g | .c4 g => if g < gen then 1 else 0
  | _ => 0
/-- owners of the user mutex -/
def Owns : Pc → Prop
  | .held | .c0 | .c1 _ | .sig _ true | .post _ true => True
  | _ => False
/-- the generation a waiter carries -/
def GenLe (gen : Nat) : Pc → Prop
  | .c1 g | .c2 g | .c3 g | .c4 g => g ≤ gen
  | _ => True

structure Inv (N : Nat) (s : Sys) : Prop where
  waiting : s.waiting = tot N wW s.th
  wake : s.wake = s.sem + tot N wT s.th
  elig : s.wake ≤ tot N (wE s.gen) s.th
  gens : ∀ t, GenLe s.gen (s.th t)
  log : s.promised = s.woken + s.wake
  own : ∀ t, Owns (s.th t) ↔ s.um = some t
  lt : ∀ t, s.th t ≠ .idle → t < N

theorem inv_init (N : Nat) : Inv N Sys.init := by
  have : ∀ w : Pc → Nat, w .idle = 0 → tot N w Sys.init.th = 0 := fun w h =>
    tot_eq_zero.2 (fun t _ => h)
  refine ⟨(this wW rfl).symm, ?_, ?_, fun t => trivial, rfl, fun t => ?_, fun t h => absurd rfl h⟩
  · rw [this wT rfl]; rfl
  · simp [Sys.init]
  · simp [Sys.init, Owns]

/-- A new generation makes every registered waiter eligible. -/
theorem elig_all {N gen : Nat} {f : Nat → Pc} (h : ∀ t, GenLe gen (f t)) :
    tot N (wE (gen + 1)) f = tot N wW f :=
  tot_congr (fun k _ => by
    have := h k
    cases e : f k <;> simp only [e, GenLe] at this <;> simp only [wE, wW] <;> (try rw [if_pos (by omega)]))

theorem elig_le {N gen : Nat} {f : Nat → Pc} : tot N (wE gen) f ≤ tot N wW f :=
  tot_mono (fun c => by cases c <;> simp only [wE, wW] <;> (try split) <;> omega)

/-- Invariant for a change of one thread. -/
theorem inv_go {N : Nat} {s s' : Sys} (h : Inv N s) {t : Nat} {c : Pc} (ht : t < N)
    (hth : s'.th = upd s.th t c)
    (h1 : s'.waiting + wW (s.th t) = s.waiting + wW c)
    (h2 : s'.wake + s.sem + wT (s.th t) = s.wake + s'.sem + wT c)
    (h3 : s'.wake ≤ tot N (wE s'.gen) (upd s.th t c))
    (h4 : s.gen ≤ s'.gen) (h5 : GenLe s'.gen c)
    (h6 : s'.promised + s.woken + s.wake = s.promised + s'.woken + s'.wake)
    (h7 : Owns c ↔ s'.um = some t) (h8 : ∀ k, k ≠ t → (s'.um = some k ↔ s.um = some k)) : Inv N s' := by
  have u1 := tot_upd ht wW s.th c
  have u2 := tot_upd ht wT s.th c
  refine ⟨?_, ?_, by rw [hth]; exact h3, fun k => ?_, ?_, fun k => ?_, fun k hk => ?_⟩
  · rw [hth]; have := h.waiting; omega
  · rw [hth]; have := h.wake; omega
  · rw [hth]
    by_cases e : k = t
    · subst e; rw [upd_self]; exact h5
    · rw [upd_other _ _ e]
      have := h.gens k
      cases e' : s.th k <;> simp only [e', GenLe] at this ⊢ <;> omega
  · have := h.log; omega
  · rw [hth]
    by_cases e : k = t
    · subst e; rw [upd_self]; exact h7
    · rw [upd_other _ _ e, h.own k, h8 k e]
  · by_cases e : k = t
    · omega
    · rw [hth, upd_other _ _ e] at hk; exact h.lt k hk

/-- Every step keeps the invariant. -/
theorem inv_step {N : Nat} {s s' : Sys} (h : Inv N s) (st : Step N s s') : Inv N s' := by
  -- eligibility after a change of one thread, same generation
  have el : ∀ t c, t < N → tot N (wE s.gen) (upd s.th t c) + wE s.gen (s.th t) =
      tot N (wE s.gen) s.th + wE s.gen c := fun t c ht => tot_upd ht _ _ _
  have hel := h.elig
  have ownt := fun t => h.own t
  have others : ∀ t k, s.um = some t → k ≠ t → (none = some k ↔ s.um = some k) := by
    intro t k e hk; rw [e]; simp [Ne.symm hk]
  have others' : ∀ t k : Nat, s.um = none → k ≠ t → (some t = some k ↔ s.um = some k) := by
    intro t k e hk; rw [e]; simp [Ne.symm hk]
  cases st with
  | lock t ht e =>
    have := el t .want ht
    have ho := ownt t
    rw [e] at ho
    refine inv_go h ht rfl ?_ ?_ ?_ (Nat.le_refl _) trivial rfl ?_ (fun _ _ => Iff.rfl) <;>
      simp only [Sys.go, e, wW, wT, wE] at *
    · omega
    · simpa [Owns] using ho
  | unlock t ht e =>
    have := el t .idle ht
    have ho := (ownt t).1 (by rw [e]; trivial)
    refine inv_go h ht rfl ?_ ?_ ?_ (Nat.le_refl _) trivial rfl ?_ (fun k hk => others t k ho hk) <;>
      simp only [Sys.go, e, wW, wT, wE] at *
    · omega
    · simp [Owns]
  | wait t ht e =>
    have := el t .c0 ht
    have ho := ownt t
    rw [e] at ho
    refine inv_go h ht rfl ?_ ?_ ?_ (Nat.le_refl _) trivial rfl ?_ (fun _ _ => Iff.rfl) <;>
      simp only [Sys.go, e, wW, wT, wE] at *
    · omega
    · simpa [Owns] using ho
  | notifyIdle t all ht e =>
    have := el t (.sig all false) ht
    have ho := ownt t
    rw [e] at ho
    refine inv_go h ht rfl ?_ ?_ ?_ (Nat.le_refl _) trivial rfl ?_ (fun _ _ => Iff.rfl) <;>
      simp only [Sys.go, e, wW, wT, wE] at *
    · omega
    · simpa [Owns] using ho
  | notifyHeld t all ht e =>
    have := el t (.sig all true) ht
    have ho := ownt t
    rw [e] at ho
    refine inv_go h ht rfl ?_ ?_ ?_ (Nat.le_refl _) trivial rfl ?_ (fun _ _ => Iff.rfl) <;>
      simp only [Sys.go, e, wW, wT, wE] at *
    · omega
    · simpa [Owns] using ho
  | run t ht e =>
    have htok : wT (s.th t) ≤ tot N wT s.th := tot_le ht _ _
    have hwt : wW (s.th t) ≤ tot N wW s.th := tot_le ht _ _
    have hwk := h.wake
    have hwg := h.waiting
    have hg := h.gens t
    have ho := ownt t
    cases hpc : s.th t with
    | idle => simp [run, hpc] at e
    | held => simp [run, hpc] at e
    | want =>
      simp only [run, hpc] at e
      split at e
      · rename_i hu
        cases e
        have := el t .held ht
        refine inv_go h ht rfl ?_ ?_ ?_ (Nat.le_refl _) trivial rfl ?_ (fun k hk => others' t k hu hk) <;>
          simp only [Sys.go, hpc, wW, wT, wE] at *
        · omega
        · simp [Owns]
      · cases e
    | c0 =>
      simp only [run, hpc] at e
      cases e
      have := el t (.c1 s.gen) ht
      refine inv_go h ht rfl ?_ ?_ ?_ (Nat.le_refl _) (Nat.le_refl _) rfl ?_ (fun _ _ => Iff.rfl) <;>
        simp only [Sys.go, hpc, wW, wT, wE] at *
      · simp at this; omega
      · simpa [Owns] using ho
    | c1 g =>
      simp only [run, hpc] at e
      cases e
      have := el t (.c2 g) ht
      have ho' := ho.1 (by rw [hpc]; trivial)
      refine inv_go h ht rfl ?_ ?_ ?_ (Nat.le_refl _) ?_ rfl ?_ (fun k hk => others t k ho' hk) <;>
        simp only [Sys.go, hpc, wW, wT, wE] at *
      · omega
      · exact hg
      · simp [Owns]
    | c2 g =>
      simp only [run, hpc] at e
      split at e
      · cases e
        have := el t (.c3 g) ht
        refine inv_go h ht rfl ?_ ?_ ?_ (Nat.le_refl _) ?_ rfl ?_ (fun _ _ => Iff.rfl) <;>
          simp only [Sys.go, hpc, wW, wT, wE] at *
        · omega
        · omega
        · exact hg
        · simpa [Owns] using ho
      · cases e
    | c3 g =>
      simp only [run, hpc] at e
      simp only [hpc, wT] at htok
      rw [if_pos (by omega)] at e
      split at e
      · rename_i hne
        cases e
        have := el t .c5 ht
        refine inv_go h ht rfl ?_ ?_ ?_ (Nat.le_refl _) trivial ?_ ?_ (fun _ _ => Iff.rfl) <;>
          simp only [Sys.go, hpc, wW, wT, wE, GenLe] at *
        · omega
        · omega
        · rw [if_pos (by omega)] at this; omega
        · omega
        · simpa [Owns] using ho
      · cases e
        have := el t (.c4 g) ht
        refine inv_go h ht rfl ?_ ?_ ?_ (Nat.le_refl _) ?_ rfl ?_ (fun _ _ => Iff.rfl) <;>
          simp only [Sys.go, hpc, wW, wT, wE] at *
        · omega
        · exact hg
        · simpa [Owns] using ho
    | c4 g =>
      simp only [run, hpc] at e
      cases e
      have := el t (.c2 g) ht
      refine inv_go h ht rfl ?_ ?_ ?_ (Nat.le_refl _) ?_ rfl ?_ (fun _ _ => Iff.rfl) <;>
        simp only [Sys.go, hpc, wW, wT, wE] at *
      · omega
      · omega
      · exact hg
      · simpa [Owns] using ho
    | c5 =>
      simp only [run, hpc] at e
      split at e
      · rename_i hu
        cases e
        have := el t .held ht
        refine inv_go h ht rfl ?_ ?_ ?_ (Nat.le_refl _) trivial rfl ?_ (fun k hk => others' t k hu hk) <;>
          simp only [Sys.go, hpc, wW, wT, wE] at *
        · omega
        · simp [Owns]
      · cases e
    | sig all b =>
      have hall : ∀ n, tot N (wE (s.gen + 1)) (upd s.th t (.post n b)) = tot N wW s.th := by
        intro n
        have u1 := tot_upd ht (wE (s.gen + 1)) s.th (.post n b)
        have u2 := elig_all (N := N) h.gens
        simp only [hpc, wE] at u1
        omega
      have ho2 : ∀ n, Owns (.post n b) ↔ s.um = some t := by
        intro n; rw [← ho, hpc]; cases b <;> simp [Owns]
      cases all with
      | false =>
        simp only [run, hpc] at e
        split at e
        · cases e
          refine inv_go h ht rfl ?_ ?_ ?_ (Nat.le_succ _) trivial ?_ (ho2 _) (fun _ _ => Iff.rfl) <;>
            simp only [Sys.go, hpc, wW, wT]
          · omega
          · rw [hall]; omega
          · omega
        · cases e
          have := el t (.post 0 b) ht
          refine inv_go h ht rfl ?_ ?_ ?_ (Nat.le_refl _) trivial rfl (ho2 _) (fun _ _ => Iff.rfl) <;>
            simp only [Sys.go, hpc, wW, wT, wE] at *
          omega
      | true =>
        simp only [run, hpc] at e
        split at e
        · cases e
          refine inv_go h ht rfl ?_ ?_ ?_ (Nat.le_succ _) trivial ?_ (ho2 _) (fun _ _ => Iff.rfl) <;>
            simp only [Sys.go, hpc, wW, wT]
          · omega
          · rw [hall]; omega
          · omega
        · cases e
          have := el t (.post 0 b) ht
          refine inv_go h ht rfl ?_ ?_ ?_ (Nat.le_refl _) trivial rfl (ho2 _) (fun _ _ => Iff.rfl) <;>
            simp only [Sys.go, hpc, wW, wT, wE] at *
          omega
    | post n b =>
      simp only [run, hpc] at e
      cases e
      have := el t (back b) ht
      have ho2 : Owns (back b) ↔ s.um = some t := by
        rw [← ho, hpc]; cases b <;> simp [Owns, back]
      have hw : wW (back b) = 0 ∧ wT (back b) = 0 ∧ wE s.gen (back b) = 0 ∧ GenLe s.gen (back b) := by
        cases b <;> simp [back, wW, wT, wE, GenLe]
      rw [hw.2.2.1, hpc] at this
      refine inv_go h ht rfl ?_ ?_ ?_ (Nat.le_refl _) hw.2.2.2 rfl ho2 (fun _ _ => Iff.rfl)
      · rw [hw.1, hpc]; simp only [Sys.go, wW]
      · rw [hw.2.1, hpc]; simp only [Sys.go, wT]; omega
      · simp only [Sys.go]; simp only [wE] at this; omega

theorem inv_reach {N : Nat} {s : Sys} (h : Reach N s) : Inv N s := by
  induction h with
  | init => exact inv_init N
  | step _ st ih => exact inv_step ih st

/-! ## Properties -/

/-- Thread `t` is blocked in `pthread_cond_wait` and has released the user mutex. -/
def Blocked (s : Sys) (t : Nat) : Prop := ∃ g, s.th t = .c2 g ∨ s.th t = .c3 g ∨ s.th t = .c4 g

/-- Thread `t` owns the user mutex. -/
def Holds (s : Sys) (t : Nat) : Prop := s.um = some t

/-- C63: `pthread_cond_wait` returns with the user mutex locked; the mutex has one owner. -/
theorem returns_locked {N : Nat} {s : Sys} (h : Reach N s) {t : Nat} (ht : s.th t = .held) : Holds s t :=
  ((inv_reach h).own t).1 (by rw [ht]; trivial)

/-- C63: releasing the mutex and starting to wait is atomic for every thread that holds the mutex:
whoever holds it while `t` is in `pthread_cond_wait` (and has not been woken) sees `t` counted as a
waiter — if nobody else waits and no wake-up is under way, a signal at that moment promises one. -/
theorem wait_is_atomic {N : Nat} {s : Sys} (h : Reach N s) {t k : Nat}
    (hk : Holds s k) (hne : k ≠ t) : s.th t ≠ .c0 ∧ ∀ g, s.th t ≠ .c1 g := by
  have i := (inv_reach h).own
  constructor
  · intro e; have := (i t).1 (by rw [e]; trivial); simp only [Holds] at hk; rw [hk] at this; cases this; exact hne rfl
  · intro g e; have := (i t).1 (by rw [e]; trivial); simp only [Holds] at hk; rw [hk] at this; cases this; exact hne rfl

/-- A signal promises one more wake-up exactly if more threads wait than are being woken. -/
theorem signal_promises {s : Sys} {t : Nat} {b : Bool} (ht : s.th t = .sig false b) :
    ∃ s', run s t = some s' ∧ s'.promised = s.promised + (if s.waiting > s.wake then 1 else 0) := by
  simp only [run, ht]
  split
  · exact ⟨_, rfl, rfl⟩
  · exact ⟨_, rfl, rfl⟩

/-- A broadcast promises a wake-up to everybody who waits and is not being woken already. -/
theorem broadcast_promises {N : Nat} {s : Sys} (h : Reach N s) {t : Nat} {b : Bool} (ht : s.th t = .sig true b) :
    ∃ s', run s t = some s' ∧ s'.wake = s'.waiting ∧ s'.promised - s'.woken = s'.waiting := by
  have i := inv_reach h
  have h1 := i.log
  have h2 : s.wake ≤ s.waiting := by rw [i.waiting]; exact Nat.le_trans i.elig elig_le
  simp only [run, ht]
  split
  · exact ⟨_, rfl, rfl, by simp only [Sys.go]; omega⟩
  · exact ⟨_, rfl, by simp only [Sys.go]; omega, by simp only [Sys.go]; omega⟩

/-- Never more threads are woken than was promised: no spurious wake-ups. -/
theorem woken_le_promised {N : Nat} {s : Sys} (h : Reach N s) : s.woken ≤ s.promised := by
  have := (inv_reach h).log; omega

/-- A thread is woken only if a signal or broadcast came after it had begun to wait: the generation it
recorded is no longer the current one (`gen_counts`). -/
theorem woken_was_notified {N : Nat} {s s' : Sys} (h : Reach N s) {t : Nat} (e : run s t = some s')
    (hw : s'.woken ≠ s.woken) : ∃ g, s.th t = .c3 g ∧ g < s.gen := by
  have hg := (inv_reach h).gens t
  simp only [run] at e
  split at e <;> (try split at e) <;> (try split at e) <;> cases e <;> simp only [Sys.go] at hw <;>
    first | exact absurd rfl hw | skip
  rename_i g hpc _ hne
  rw [hpc] at hg
  exact ⟨g, hpc, by simp only [GenLe] at hg; omega⟩

/-- The generation changes exactly when a signal or broadcast promises something. -/
theorem gen_counts {N : Nat} {s s' : Sys} (st : Step N s s') :
    (s'.gen = s.gen ∧ s'.promised = s.promised) ∨ (s'.gen = s.gen + 1 ∧ s.promised < s'.promised) := by
  cases st with
  | run t ht e =>
    simp only [run] at e
    split at e <;> (try split at e) <;> (try split at e) <;> cases e <;>
      first | exact Or.inl ⟨rfl, rfl⟩ | exact Or.inr ⟨rfl, by simp only [Sys.go]; omega⟩
  | lock => left; exact ⟨rfl, rfl⟩
  | unlock => left; exact ⟨rfl, rfl⟩
  | wait => left; exact ⟨rfl, rfl⟩
  | notifyIdle => left; exact ⟨rfl, rfl⟩
  | notifyHeld => left; exact ⟨rfl, rfl⟩

/-- The wake-ups are stuck: no thread blocked in `pthread_cond_wait` and no notifying thread can go on. -/
def Quiet (s : Sys) : Prop :=
  ∀ t, (∃ g, s.th t = .c1 g ∨ s.th t = .c2 g ∨ s.th t = .c3 g ∨ s.th t = .c4 g) ∨
    (∃ n b, s.th t = .post n b) → run s t = none

/-- C63: no wake-up is lost: when nothing is under way any more, as many threads have been woken as
was promised. -/
theorem no_lost_wakeup {N : Nat} {s : Sys} (h : Reach N s) (hq : Quiet s) : s.woken = s.promised := by
  have i := inv_reach h
  have hz : s.wake = 0 := by
    refine Nat.eq_zero_of_not_pos (fun hpos => ?_)
    have hT : tot N wT s.th = 0 := by
      refine tot_eq_zero.2 (fun t ht => ?_)
      have := hq t
      cases e : s.th t <;> simp only [wT]
      · rename_i g
        have := this (Or.inl ⟨g, by simp [e]⟩)
        simp only [run, e] at this
        split at this <;> (try split at this) <;> cases this
      · rename_i g
        have := this (Or.inl ⟨g, by simp [e]⟩)
        simp [run, e] at this
      · rename_i n b
        have := this (Or.inr ⟨n, b, by simp [e]⟩)
        simp [run, e] at this
    obtain ⟨t, ht, he⟩ := tot_pos (Nat.lt_of_lt_of_le hpos i.elig)
    have hsem : s.sem ≠ 0 := by have := i.wake; omega
    cases e : s.th t <;> simp only [e, wE] at he <;> try omega
    · rename_i g; have := hq t (Or.inl ⟨g, by simp [e]⟩); simp [run, e] at this
    · rename_i g; have := hq t (Or.inl ⟨g, by simp [e]⟩); simp [run, e, hsem] at this
    · rename_i g; have := hq t (Or.inl ⟨g, by simp [e]⟩)
      simp only [run, e] at this
      split at this <;> (try split at this) <;> cases this
    · rename_i g; have := hq t (Or.inl ⟨g, by simp [e]⟩); simp [run, e] at this
  have := i.log
  omega

/-- Steps in which no new call of `pthread_cond_wait` registers. -/
inductive Steps' (N : Nat) : Sys → Sys → Prop where
  | nil {s : Sys} : Steps' N s s
  | snoc {s u v : Sys} : Steps' N s u → Step N u v → (∀ t, u.th t = .c0 → v.th t = .c0) → Steps' N s v

theorem keeps_all {N : Nat} {s s' : Sys} (st : Step N s s')
    (hc : ∀ t, s.th t = .c0 → s'.th t = .c0) (hw : s.wake = s.waiting) : s'.wake = s'.waiting := by
  cases st with
  | run t ht e =>
    have hc := hc t
    simp only [run] at e
    split at e <;> (try split at e) <;> (try split at e) <;> cases e <;> simp only [Sys.go] at * <;>
      first | exact hw | skip
    · have := hc (by assumption)
      simp at this
    · omega
    · omega
  | lock => exact hw
  | unlock => exact hw
  | wait => exact hw
  | notifyIdle => exact hw
  | notifyHeld => exact hw

theorem Steps'.reach {N : Nat} {s s' : Sys} (d : Steps' N s s') (h : Reach N s) : Reach N s' := by
  induction d with
  | nil => exact h
  | snoc _ st _ ih => exact ih.step st

theorem Steps'.keeps {N : Nat} {s s' : Sys} (d : Steps' N s s')
    (hw : s.wake = s.waiting) : s'.wake = s'.waiting := by
  induction d with
  | nil => exact hw
  | snoc _ st hc ih => exact keeps_all st hc ih

/-- C63: a broadcast wakes everybody: if no other thread begins to wait after it, then when
the wake-ups are through nobody is waiting. -/
theorem broadcast_wakes_all {N : Nat} {s s1 s2 : Sys} (h : Reach N s) {t : Nat} {b : Bool}
    (ht : s.th t = .sig true b) (e : run s t = some s1) (hs : Steps' N s1 s2) (hq : Quiet s2) :
    ∀ k, (∀ g, s2.th k ≠ .c1 g) ∧ ¬ Blocked s2 k := by
  have htl := (inv_reach h).lt t (by simp [ht])
  have r1 : Reach N s1 := h.step (.run t htl e)
  obtain ⟨s', e', hw, _⟩ := broadcast_promises h ht
  rw [e] at e'; cases e'
  have r2 := hs.reach r1
  have hw2 := hs.keeps hw
  have i := inv_reach r2
  have h1 := no_lost_wakeup r2 hq
  have h2 : s2.waiting = 0 := by have := i.log; omega
  intro k
  by_cases hk : k < N
  · have h3 := tot_eq_zero.1 (i.waiting ▸ h2) k hk
    constructor
    · intro g e; simp [e, wW] at h3
    · rintro ⟨g, e | e | e⟩ <;> simp [e, wW] at h3
  · have : s2.th k = .idle := Classical.byContradiction (fun e => hk (i.lt k e))
    exact ⟨fun g e => by simp [this] at e, by rintro ⟨g, e | e | e⟩ <;> simp [this] at e⟩

/-! ### A schedule that delivers -/

/-- Work left for a thread when waiters of an older generation are served and the others give their
tokens back. -/
def left (gen : Nat) : Pc → Nat
  | .c1 g => if g < gen then 5 else 0
  | .c2 g => if g < gen then 4 else 0
  | .c3 g => if g < gen then 3 else 2
  | .c4 g => if g < gen then 6 else 1
  | .post _ _ => 1
  | _ => 0

/-- Steps of blocked and notifying threads only. -/
inductive Serve (N : Nat) : Sys → Sys → Prop where
  | nil {s : Sys} : Serve N s s
  | cons {s u v : Sys} (t : Nat) : t < N →
      ((∃ g, s.th t = .c1 g ∨ s.th t = .c2 g ∨ s.th t = .c3 g ∨ s.th t = .c4 g) ∨ (∃ n b, s.th t = .post n b)) →
      run s t = some u → Serve N u v → Serve N s v

/-- One useful step. -/
theorem serve_one {N : Nat} {s : Sys} (i : Inv N s) (hpos : 0 < s.wake) :
    ∃ t u, t < N ∧
      ((∃ g, s.th t = .c1 g ∨ s.th t = .c2 g ∨ s.th t = .c3 g ∨ s.th t = .c4 g) ∨ (∃ n b, s.th t = .post n b)) ∧
      run s t = some u ∧ tot N (left u.gen) u.th < tot N (left s.gen) s.th ∧ u.promised = s.promised := by
  have hdec : ∀ (t : Nat) (c : Pc) (u : Sys), t < N → u.th = upd s.th t c → u.gen = s.gen →
      left s.gen c < left s.gen (s.th t) → tot N (left u.gen) u.th < tot N (left s.gen) s.th := by
    intro t c u ht h1 h2 h3
    have := tot_upd ht (left s.gen) s.th c
    rw [h1, h2]; omega
  have hback : ∀ b, left s.gen (back b) = 0 := by intro b; cases b <;> rfl
  by_cases hT : 0 < tot N wT s.th
  · obtain ⟨t, ht, hw⟩ := tot_pos hT
    cases e : s.th t <;> simp only [e, wT] at hw <;> try omega
    · rename_i g
      by_cases hg : s.gen ≠ g
      · have er : run s t =
            some ({ s with wake := s.wake - 1, waiting := s.waiting - 1, woken := s.woken + 1 }.go t .c5) := by
          simp only [run, e]; rw [if_pos (by omega), if_pos hg]
        refine ⟨t, _, ht, Or.inl ⟨g, by simp [e]⟩, er, ?_, rfl⟩
        refine hdec t .c5 _ ht rfl rfl ?_
        rw [e]; simp only [left]; split <;> omega
      · have er : run s t = some (s.go t (.c4 g)) := by
          simp only [run, e]; rw [if_pos (by omega), if_neg hg]
        refine ⟨t, _, ht, Or.inl ⟨g, by simp [e]⟩, er, ?_, rfl⟩
        refine hdec t (.c4 g) _ ht rfl rfl ?_
        have hg : ¬ g < s.gen := by omega
        rw [e]; simp only [left, if_neg hg]; omega
    · rename_i g
      have er : run s t = some ({ s with sem := s.sem + 1 }.go t (.c2 g)) := by simp only [run, e]
      refine ⟨t, _, ht, Or.inl ⟨g, by simp [e]⟩, er, ?_, rfl⟩
      refine hdec t (.c2 g) _ ht rfl rfl ?_
      rw [e]; simp only [left]; split <;> omega
    · rename_i n b
      have er : run s t = some ({ s with sem := s.sem + n }.go t (back b)) := by simp only [run, e]
      refine ⟨t, _, ht, Or.inr ⟨n, b, by simp [e]⟩, er, ?_, rfl⟩
      refine hdec t (back b) _ ht rfl rfl ?_
      rw [e, hback]; simp [left]
  · have hsem : s.sem ≠ 0 := by have := i.wake; omega
    obtain ⟨t, ht, he⟩ := tot_pos (Nat.lt_of_lt_of_le hpos i.elig)
    have hwt := tot_le ht wT s.th
    cases e : s.th t <;> simp only [e, wE] at he <;> try omega
    · rename_i g
      have hg : g < s.gen := by split at he <;> omega
      have er : run s t = some ({ s with um := none }.go t (.c2 g)) := by simp only [run, e]
      refine ⟨t, _, ht, Or.inl ⟨g, by simp [e]⟩, er, ?_, rfl⟩
      refine hdec t (.c2 g) _ ht rfl rfl ?_
      rw [e]; simp only [left, if_pos hg]; omega
    · rename_i g
      have hg : g < s.gen := by split at he <;> omega
      have er : run s t = some ({ s with sem := s.sem - 1 }.go t (.c3 g)) := by
        simp only [run, e]; rw [if_pos hsem]
      refine ⟨t, _, ht, Or.inl ⟨g, by simp [e]⟩, er, ?_, rfl⟩
      refine hdec t (.c3 g) _ ht rfl rfl ?_
      rw [e]; simp only [left, if_pos hg]; omega
    · simp only [e, wT] at hwt; omega
    · simp only [e, wT] at hwt; omega

/-- C63: from every reachable state the threads already blocked or notifying can by themselves
bring about all promised wake-ups (whether they do depends on the scheduler: a thread that may not
be woken yet can take a token and give it back any number of times). -/
theorem can_deliver {N : Nat} {s : Sys} (h : Reach N s) :
    ∃ s', Serve N s s' ∧ s'.promised = s.promised ∧ s'.woken = s'.promised := by
  generalize hr : tot N (left s.gen) s.th = r
  induction r using Nat.strongRecOn generalizing s with
  | ind r ih =>
    have i := inv_reach h
    by_cases hp : 0 < s.wake
    · obtain ⟨t, u, ht, hk, e, hlt, hpr⟩ := serve_one i hp
      obtain ⟨s', h1, h2, h3⟩ := ih _ (hr ▸ hlt) (h.step (.run t ht e)) rfl
      exact ⟨s', .cons t ht hk e h1, by omega, h3⟩
    · exact ⟨s, .nil, rfl, by have := i.log; omega⟩

/-! ### Stolen wake-ups -/

/-- Events for concrete schedules. -/
inductive Ev where
  | run (t : Nat) | lock (t : Nat) | unlock (t : Nat) | wait (t : Nat) | notify (t : Nat) (all : Bool)

def exec (N : Nat) : List Ev → Sys → Option Sys
  | [], s => some s
  | .run t :: es, s => if t < N then (match run s t with | some s' => exec N es s' | none => none) else none
  | .lock t :: es, s => if t < N ∧ s.th t = .idle then exec N es (s.go t .want) else none
  | .unlock t :: es, s => if t < N ∧ s.th t = .held then exec N es ({ s with um := none }.go t .idle) else none
  | .wait t :: es, s => if t < N ∧ s.th t = .held then exec N es (s.go t .c0) else none
  | .notify t all :: es, s => if t < N ∧ s.th t = .idle then exec N es (s.go t (.sig all false)) else none

/-- Sequences of steps. -/
inductive Steps (N : Nat) : Sys → Sys → Prop where
  | nil {s : Sys} : Steps N s s
  | cons {s u v : Sys} : Step N s u → Steps N u v → Steps N s v

theorem exec_steps {N : Nat} {es : List Ev} : ∀ {s s' : Sys}, exec N es s = some s' → Steps N s s' := by
  induction es with
  | nil => intro s s' e; cases e; exact .nil
  | cons x es ih =>
    intro s s' e
    cases x <;> simp only [exec] at e <;> split at e <;> try cases e
    · rename_i t ht
      split at e
      · rename_i s1 h1; exact .cons (.run t ht h1) (ih e)
      · cases e
    · rename_i t hc; exact .cons (.lock t hc.1 hc.2) (ih e)
    · rename_i t hc; exact .cons (.unlock t hc.1 hc.2) (ih e)
    · rename_i t hc; exact .cons (.wait t hc.1 hc.2) (ih e)
    · rename_i t all hc; exact .cons (.notifyIdle t all hc.1 hc.2) (ih e)

theorem Steps.reach {N : Nat} {s s' : Sys} (d : Steps N s s') (h : Reach N s) : Reach N s' := by
  induction d with
  | nil => exact h
  | cons st _ ih => exact ih (h.step st)

/-- Thread `t` locks, waits and blocks. -/
def blockEv (t : Nat) : List Ev := [.lock t, .run t, .wait t, .run t, .run t]
/-- Thread `t` takes a token, is woken, gets the mutex and unlocks it. -/
def wokenEv (t : Nat) : List Ev := [.run t, .run t, .run t, .unlock t]

/-- Up to the moment at which thread 3 is about to broadcast and only thread 0 waits. -/
def before : List Ev := blockEv 0 ++ [.notify 3 true]
/-- The broadcast; threads 1 and 2 begin to wait; thread 3 signals once; 1 and 2 are woken. -/
def after : List Ev := [.run 3, .run 3] ++ blockEv 1 ++ blockEv 2 ++ [.notify 3 false, .run 3, .run 3] ++
  wokenEv 1 ++ wokenEv 2

/-- Finding: wake-ups can be stolen.  Thread 0 is the only waiter when thread 3 broadcasts; threads
1 and 2, which begin to wait after the broadcast, take both its wake-up and that of one later signal,
and thread 0 stays blocked with no wake-up left.  (With `signal` in place of the broadcast the same
happens: `stolen_signal`.)  So `broadcast_wakes_all` needs its premise. -/
theorem stolen_broadcast : ∃ s s', Reach 4 s ∧ Blocked s 0 ∧ s.waiting = 1 ∧ s.th 3 = .sig true false ∧
    Steps 4 s s' ∧ Blocked s' 0 ∧ s'.wake = 0 ∧ s'.sem = 0 ∧ s'.waiting = 1 ∧
    s'.th 1 = .idle ∧ s'.th 2 = .idle ∧ s'.th 3 = .idle := by
  have h1 : (exec 4 before Sys.init).map (fun s => (s.th 0, s.waiting, s.th 3)) =
      some (.c2 0, 1, .sig true false) := by decide +kernel
  cases e : exec 4 before Sys.init with
  | none => rw [e] at h1; cases h1
  | some s =>
    rw [e] at h1
    have h2 : ((exec 4 before Sys.init).bind (exec 4 after)).map (fun s => (s.th 0, s.wake, s.sem, s.waiting)) =
      some (.c2 0, 0, 0, 1) := by decide +kernel
    have h3 : ((exec 4 before Sys.init).bind (exec 4 after)).map (fun s => (s.th 1, s.th 2, s.th 3)) =
      some (.idle, .idle, .idle) := by decide +kernel
    rw [e] at h2 h3
    simp only [Option.bind_some] at h2 h3
    cases e' : exec 4 after s with
    | none => rw [e'] at h2; cases h2
    | some s' =>
      rw [e'] at h2 h3
      simp only [Option.map_some, Option.some.injEq, Prod.mk.injEq] at h1 h2 h3
      exact ⟨s, s', (exec_steps e).reach .init, ⟨0, Or.inl h1.1⟩, h1.2.1, h1.2.2, exec_steps e',
        ⟨0, Or.inl h2.1⟩, h2.2.1, h2.2.2.1, h2.2.2.2, h3.1, h3.2.1, h3.2.2⟩

def beforeS : List Ev := blockEv 0 ++ [.notify 3 false]

theorem stolen_signal : ∃ s s', Reach 4 s ∧ Blocked s 0 ∧ s.waiting = 1 ∧ s.th 3 = .sig false false ∧
    Steps 4 s s' ∧ Blocked s' 0 ∧ s'.wake = 0 ∧ s'.sem = 0 ∧ s'.waiting = 1 ∧
    s'.th 1 = .idle ∧ s'.th 2 = .idle ∧ s'.th 3 = .idle := by
  have h1 : (exec 4 beforeS Sys.init).map (fun s => (s.th 0, s.waiting, s.th 3)) =
      some (.c2 0, 1, .sig false false) := by decide +kernel
  cases e : exec 4 beforeS Sys.init with
  | none => rw [e] at h1; cases h1
  | some s =>
    rw [e] at h1
    have h2 : ((exec 4 beforeS Sys.init).bind (exec 4 after)).map (fun s => (s.th 0, s.wake, s.sem, s.waiting)) =
      some (.c2 0, 0, 0, 1) := by decide +kernel
    have h3 : ((exec 4 beforeS Sys.init).bind (exec 4 after)).map (fun s => (s.th 1, s.th 2, s.th 3)) =
      some (.idle, .idle, .idle) := by decide +kernel
    rw [e] at h2 h3
    simp only [Option.bind_some] at h2 h3
    cases e' : exec 4 after s with
    | none => rw [e'] at h2; cases h2
    | some s' =>
      rw [e'] at h2 h3
      simp only [Option.map_some, Option.some.injEq, Prod.mk.injEq] at h1 h2 h3
      exact ⟨s, s', (exec_steps e).reach .init, ⟨0, Or.inl h1.1⟩, h1.2.1, h1.2.2, exec_steps e',
        ⟨0, Or.inl h2.1⟩, h2.2.1, h2.2.2.1, h2.2.2.2, h3.1, h3.2.1, h3.2.2⟩

/-- Not vacuous: two threads block, a broadcast wakes both, and all is quiet. -/
example : (exec 3 (blockEv 0 ++ blockEv 1 ++ [.notify 2 true, .run 2, .run 2] ++ wokenEv 1 ++ wokenEv 0)
    Sys.init).map (fun s => (s.woken, s.promised, s.waiting)) = some (2, 2, 0) := by decide +kernel

end Verif.Cond
