import Verif.WinSem.Model

/-! # C69: threads on one semaphore -/
namespace Verif.WinSem
open Verif.Tot

/-- The thread is in the middle of `sem_getvalue`, holding a token. -/
def peek : Pc → Nat
  | .gv1 => 1
  | _ => 0

/-- How many threads are in the middle of `sem_getvalue`. -/
def peeking (N : Nat) (s : Sys) : Nat := tot N peek s.th

theorem start_peek {c : Pc} (h : c.start = true) : peek c = 0 := by cases c <;> simp_all [Pc.start, peek]
theorem free_peek {c : Pc} (h : c.free = true) : peek c = 0 := by cases c <;> simp_all [Pc.free, peek]

structure Inv (max N n : Nat) (s : Sys) : Prop where
  le : s.cnt ≤ max
  sum : s.cnt + s.takes + peeking N s + s.lost = n + s.posts

theorem inv_step {max N n : Nat} {s s' : Sys} (hi : Inv max N n s) (h : Step max N s s') : Inv max N n s' := by
  obtain ⟨h1, h2⟩ := hi
  unfold peeking at h2
  cases h with
  | run t ht h =>
    have hu := fun c => tot_upd ht peek s.th c
    unfold run at h
    split at h
    · simp at h
    · simp at h
    all_goals rename_i hp; rw [hp] at hu; try split at h
    all_goals first | (injection h with h; subst h; constructor <;> simp only [Sys.go, peeking] <;>
      first | omega | (have e := hu (.ret .ok); have e1 := hu (.ret .eagain); have e2 := hu (.ret .einval); have e3 := hu .gv1; have e4 := hu (.ret (.value 0)); have e5 := hu (.ret (.value (s.cnt + 1))); simp only [peek] at *; omega)) | simp at h
  | call t c ht h hc =>
    have e := tot_upd ht peek s.th c
    rw [start_peek hc, free_peek h] at e
    exact ⟨h1, by simp only [Sys.go, peeking]; omega⟩
  | timeout t ht h h0 =>
    have e := tot_upd ht peek s.th (.ret .etimedout)
    rw [h] at e
    simp only [peek] at e
    exact ⟨h1, by simp only [Sys.go, peeking]; omega⟩

theorem reach_inv {max N n : Nat} (hn : n ≤ max) {s : Sys} (h : Reach max N n s) : Inv max N n s := by
  induction h with
  | init =>
    refine ⟨hn, ?_⟩
    have : peeking N (Sys.init n) = 0 := by
      unfold peeking
      rw [tot_congr (w := peek) (w' := fun _ => 0) (g := fun _ => (0 : Nat)) (fun k _ => rfl)]
      induction N with
      | zero => rfl
      | succ N ih => rw [tot_succ, ih]
    rw [this]; simp [Sys.init]
  | step _ hs ih => exact inv_step ih hs

/-- **C69.** Tokens are conserved: the count, the successful waits, the tokens held by running `sem_getvalue` calls and
those such calls lost add up to the initial value plus the successful posts. -/
theorem conservation {max N n : Nat} (hn : n ≤ max) {s : Sys} (h : Reach max N n s) :
    s.cnt + s.takes + peeking N s + s.lost = n + s.posts ∧ s.cnt ≤ max :=
  ⟨(reach_inv hn h).sum, (reach_inv hn h).le⟩

/-- **C69.** Never more successful waits than the initial value and the successful posts. -/
theorem never_too_many {max N n : Nat} (hn : n ≤ max) {s : Sys} (h : Reach max N n s) : s.takes ≤ n + s.posts := by
  have := (conservation hn h).1; omega

theorem posts_mono {max N : Nat} {s s' : Sys} (h : Step max N s s') : s.posts ≤ s'.posts := by
  cases h with
  | run t ht h =>
    unfold run at h
    split at h
    · simp at h
    · simp at h
    all_goals try split at h
    all_goals first | (injection h with h; subst h; simp only [Sys.go]; omega) | simp at h
  | call => simp [Sys.go]
  | timeout => simp [Sys.go]

/-- **C69.** No token is lost as long as the initial value and the posts together do not exceed `SEM_VALUE_MAX`. -/
theorem nothing_lost {max N n : Nat} {s : Sys} (h : Reach max N n s) (hm : n + s.posts ≤ max) : s.lost = 0 := by
  induction h with
  | init => rfl
  | @step s s' hr hs ih =>
    have hp := posts_mono hs
    have ih := ih (by omega)
    have hi := reach_inv (by omega) hr
    cases hs with
    | run t ht h =>
      have h1 := tot_le ht peek s.th
      have hsum := hi.sum
      unfold peeking at hsum
      unfold run at h
      split at h
      · simp at h
      · simp at h
      all_goals rename_i hpc; try split at h
      all_goals first
        | (injection h with h; subst h; simp only [Sys.go]; first | exact ih | (rw [hpc] at h1; simp only [peek] at h1; simp only [Sys.go] at hm; omega))
        | simp at h
    | call => simpa [Sys.go] using ih
    | timeout => simpa [Sys.go] using ih

/-- **C69.** A waiting thread can return exactly when the count is not 0; all other calls return without waiting. -/
theorem blocks_iff {max : Nat} {s : Sys} {t : Nat} (h : (s.th t).free = false) :
    run max s t = none ↔ (s.th t = .wait ∨ s.th t = .timed) ∧ s.cnt = 0 := by
  unfold run
  split <;> rename_i hp <;> simp [hp, Pc.free] at h ⊢ <;> (try split) <;> simp_all

/-- **C69.** No lost wake-up: if no step is possible and some thread waits, then as many waits have succeeded as there
were tokens (none is held by a `sem_getvalue`). -/
theorem no_lost_wakeup {max N n : Nat} (hn : n ≤ max) {s : Sys} (h : Reach max N n s) (hb : ∀ t, t < N → run max s t = none)
    {t : Nat} (ht : t < N) (hw : s.th t = .wait ∨ s.th t = .timed) : s.cnt = 0 ∧ s.takes + s.lost = n + s.posts := by
  have hi := reach_inv hn h
  have h0 : s.cnt = 0 := by
    have hf : (s.th t).free = false := by rcases hw with e | e <;> rw [e] <;> rfl
    exact ((blocks_iff hf).1 (hb t ht)).2
  have hp : peeking N s = 0 := by
    apply Classical.byContradiction
    intro hne
    obtain ⟨k, hk, h1⟩ := tot_pos (N := N) (w := peek) (f := s.th) (by unfold peeking at hne; omega)
    have hg : s.th k = .gv1 := by
      revert h1
      cases s.th k <;> simp [peek]
    have := (blocks_iff (max := max) (s := s) (t := k) (by rw [hg]; rfl)).1 (hb k hk)
    rw [hg] at this
    simp at this
  have := hi.sum
  exact ⟨h0, by omega⟩

/-- **C69.** What the calls return: a step of a call that ends it with result `r`. -/
theorem results {max : Nat} {s s' : Sys} {t : Nat} {r : Res} (h : run max s t = some s') (hr : s'.th t = .ret r) :
    (s.th t = .wait ∧ r = .ok ∧ 0 < s.cnt) ∨ (s.th t = .timed ∧ r = .ok ∧ 0 < s.cnt) ∨
    (s.th t = .try_ ∧ (r = .ok ∧ 0 < s.cnt ∨ r = .eagain ∧ s.cnt = 0)) ∨
    (s.th t = .post ∧ (r = .ok ∧ s'.cnt = s.cnt + 1 ∨ r = .einval ∧ max ≤ s.cnt ∧ s'.cnt = s.cnt)) ∨
    (s.th t = .gv0 ∧ r = .value 0 ∧ s.cnt = 0) ∨
    (s.th t = .gv1 ∧ (r = .value s'.cnt ∨ r = .einval ∧ s'.lost = s.lost + 1)) := by
  unfold run at h
  split at h
  · simp at h
  · simp at h
  all_goals rename_i hp; try split at h
  all_goals first
    | (injection h with h; subst h; simp [Sys.go] at hr ⊢; done)
    | (injection h with h; subst h; simp [Sys.go] at hr ⊢; simp [hp]; first | omega | (subst hr; simp; try omega))
    | simp at h

/-- **C69.** The value `sem_getvalue` reports is the number of tokens neither taken nor held by other `sem_getvalue` calls
at that moment: never more than there are, exactly as many if no other such call is running. -/
theorem getvalue_value {max N n : Nat} (hn : n ≤ max) {s s' : Sys} (h : Reach max N n s) {t v : Nat} (ht : t < N)
    (hs : run max s t = some s') (hr : s'.th t = .ret (.value v)) :
    s'.takes + s'.lost + v + peeking N s' = n + s'.posts := by
  have hi := reach_inv hn (.step h (.run t ht hs))
  have hv : v = s'.cnt := by
    rcases results hs hr with ⟨_, h1, _⟩ | ⟨_, h1, _⟩ | ⟨_, ⟨h1, _⟩ | ⟨h1, _⟩⟩ | ⟨_, ⟨h1, _⟩ | ⟨h1, _⟩⟩ | ⟨h0, h1, h2⟩ | ⟨h0, h1 | ⟨h1, _⟩⟩
    all_goals first | (simp at h1; done) | skip
    · unfold run at hs
      rw [h0] at hs
      simp only [h2] at hs
      simp at hs
      subst hs
      simp only [Sys.go]
      injection h1 with h1
      omega
    · injection h1
  have := hi.sum
  omega

/-- Steps a call still has to make. -/
def work : Pc → Nat
  | .idle => 0
  | .ret _ => 0
  | .gv0 => 2
  | _ => 1

/-- **C69.** Calls take at most two steps: without new calls the threads come to rest. -/
theorem drains {max N : Nat} {s s' : Sys} {t : Nat} (ht : t < N) (h : run max s t = some s') : tot N work s'.th < tot N work s.th := by
  have hu := fun c => tot_upd ht work s.th c
  unfold run at h
  split at h
  · simp at h
  · simp at h
  all_goals rename_i hp; rw [hp] at hu; try split at h
  all_goals first
    | (injection h with h; subst h; simp only [Sys.go]
       first
         | (have e := hu (.ret .ok); simp only [work] at e; omega)
         | (have e := hu (.ret .eagain); simp only [work] at e; omega)
         | (have e := hu (.ret .einval); simp only [work] at e; omega)
         | (have e := hu .gv1; simp only [work] at e; omega)
         | (have e := hu (.ret (.value 0)); simp only [work] at e; omega)
         | (have e := hu (.ret (.value (s.cnt + 1))); simp only [work] at e; omega))
    | simp at h

/-! ### Findings and non-vacuity -/

inductive Ev where
  | run (t : Nat)
  | call (t : Nat) (c : Pc)

def exec (max N : Nat) (s : Sys) : List Ev → Option Sys
  | [] => some s
  | .run t :: l => if t < N then (run max s t).bind fun s => exec max N s l else none
  | .call t c :: l => if t < N ∧ (s.th t).free = true ∧ c.start = true then exec max N (s.go t c) l else none

theorem exec_reach {max N n : Nat} {l : List Ev} : ∀ {s s' : Sys}, Reach max N n s → exec max N s l = some s' → Reach max N n s' := by
  induction l with
  | nil => intro s s' h e; injection e with e; exact e ▸ h
  | cons a l ih =>
    intro s s' h e
    cases a with
    | run t =>
      simp only [exec] at e
      split at e
      · rename_i ht
        cases hr : run max s t with
        | none => simp [hr] at e
        | some s1 =>
          rw [hr, Option.bind_some] at e
          exact ih (.step h (.run t ht hr)) e
      · simp at e
    | call t c =>
      simp only [exec] at e
      split at e
      · rename_i ht
        exact ih (.step h (.call t c ht.1 ht.2.1 ht.2.2)) e
      · simp at e

/-- What is looked at in the examples. -/
def view (o : Option Sys) : Option ((Nat × Nat × Nat) × Pc × Pc) := o.map fun s => ((s.cnt, s.posts, s.lost), s.th 0, s.th 1)

theorem of_view {max N n : Nat} {l : List Ev} {a b c : Nat} {p q : Pc} (h : view (exec max N (Sys.init n) l) = some ((a, b, c), p, q)) :
    ∃ s, Reach max N n s ∧ s.cnt = a ∧ s.posts = b ∧ s.lost = c ∧ s.th 0 = p ∧ s.th 1 = q := by
  cases he : exec max N (Sys.init n) l with
  | none => rw [he] at h; simp [view] at h
  | some s =>
    rw [he] at h
    simp [view] at h
    exact ⟨s, exec_reach .init he, h.1.1, h.1.2.1, h.1.2.2, h.2.1, h.2.2⟩

/-- FINDING: while another thread merely reads the value, `sem_trywait` fails with EAGAIN although the only token has
never been taken. -/
theorem getvalue_steals : ∃ s, Reach 2147483647 2 1 s ∧ s.takes = 0 ∧ s.posts = 0 ∧ s.th 0 = .gv1 ∧ s.th 1 = .ret .eagain := by
  obtain ⟨s, h, h1, h2, h3, h4, h5⟩ := of_view (max := 2147483647) (N := 2) (n := 1)
    (l := [.call 0 .gv0, .call 1 .try_, .run 0, .run 1]) (a := 0) (b := 0) (c := 0) (p := .gv1) (q := .ret .eagain) (by decide +kernel)
  refine ⟨s, h, ?_, h2, h4, h5⟩
  have hs := (conservation (by decide) h).1
  have h6 := tot_le (N := 2) (t := 0) (by omega) peek s.th
  rw [h4] at h6
  simp only [peek] at h6
  unfold peeking at hs
  omega

/-- FINDING: at the maximum, a post during `sem_getvalue` succeeds, and then `sem_getvalue` fails and a token is gone
for good. -/
theorem getvalue_loses : ∃ s, Reach 2147483647 2 2147483647 s ∧ s.cnt = 2147483647 ∧ s.posts = 1 ∧ s.lost = 1 ∧
    s.th 0 = .ret .einval ∧ s.th 1 = .ret .ok :=
  of_view (l := [.call 0 .gv0, .call 1 .post, .run 0, .run 1, .run 0]) (by decide +kernel)

/-- A waiter is let in by a post; `sem_getvalue` reports what is left. -/
theorem demo : ∃ s, Reach 2147483647 2 1 s ∧ s.cnt = 1 ∧ s.posts = 3 ∧ s.lost = 0 ∧ s.th 0 = .ret (.value 1) ∧ s.th 1 = .ret .ok :=
  of_view (l := [.call 0 .wait, .run 0, .call 1 .wait, .call 0 .post, .run 0, .run 1, .call 1 .post, .run 1,
    .call 1 .try_, .run 1, .call 0 .post, .run 0, .call 0 .gv0, .run 0, .run 0]) (by decide +kernel)

end Verif.WinSem
