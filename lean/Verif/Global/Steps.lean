import Verif.Global.Inv
/-! # What each function does to the three locks -/
namespace Verif.Global
open Verif.Portable Spec

theorem slot_rw {i : Nat} (h : i < 2) : Slot .rwlock i := by
  match i, h with
  | 0, _ => exact .rw0
  | 1, _ => exact .rw1

theorem timeInit1_spec {s0 s : St} (i : Inv s0 s) {n : Nat} (hn : n < 2) (e : Env) :
    ∃ s', timeInit1 s n e = some s' ∧ Inv s0 s' ∧
      (∀ k v, (k, v) ≠ (Kind.rwlock, n) → s'.var k v = s.var k v) ∧
      (s'.var .rwlock n ≠ none ↔ s.var .rwlock n ≠ none ∨ Ok e) := by
  unfold timeInit1
  by_cases h : s.var .rwlock n = none
  · obtain ⟨s', r, a, b, c, d⟩ := i.create (slot_rw hn) h (c := .rwlockInit (some n)) rfl e
    rw [if_neg (by simpa using h)]
    have a : rwlockInit s (some n) e = some (s', r) := a
    rw [a]
    exact ⟨s', rfl, b, c, by rw [d]; simp [h]⟩
  · rw [if_pos h]
    exact ⟨s, rfl, i, fun _ _ _ => rfl, by simp [h]⟩

theorem timeInit_spec {s0 s : St} (i : Inv s0 s) (e : Sysv) :
    ∃ s', timeInit s e = some (s', 0) ∧ Inv s0 s' ∧ s'.var .mutex 0 = s.var .mutex 0 ∧
      (s'.var .rwlock 0 ≠ none ↔ s.var .rwlock 0 ≠ none ∨ Ok e.rw0) ∧
      (s'.var .rwlock 1 ≠ none ↔ s.var .rwlock 1 ≠ none ∨ Ok e.rw1) := by
  obtain ⟨s1, a1, b1, c1, d1⟩ := timeInit1_spec i (n := 0) (by decide) e.rw0
  obtain ⟨s2, a2, b2, c2, d2⟩ := timeInit1_spec b1 (n := 1) (by decide) e.rw1
  refine ⟨s2, ?_, b2, ?_, ?_, ?_⟩
  · unfold timeInit
    simp only [Option.bind_eq_bind, a1, a2, Option.bind_some]
  · rw [c2 _ _ (by simp), c1 _ _ (by simp)]
  · rw [c2 _ _ (by simp), d1]
  · rw [d2, c1 _ _ (by simp)]

theorem timeCleanup1_spec {s0 s : St} (i : Inv s0 s) {n : Nat} (hn : n < 2) (e : Env) :
    ∃ s', timeCleanup1 s n e = some s' ∧ Inv s0 s' ∧
      (∀ k v, (k, v) ≠ (Kind.rwlock, n) → s'.var k v = s.var k v) ∧ s'.var .rwlock n = none := by
  unfold timeCleanup1
  by_cases h : s.var .rwlock n = none
  · rw [if_pos h]
    exact ⟨s, rfl, i, fun _ _ _ => rfl, h⟩
  · obtain ⟨s', r, a, b, c, d⟩ := i.destroy (slot_rw hn) h (c := .rwlockDestroy (some n)) rfl e
    rw [if_neg h]
    have a : rwlockDestroy s (some n) e = some (s', r) := a
    rw [a]
    refine ⟨s', ?_, b, c, d⟩
    simp only [Option.map_some, setVar_none d]

theorem timeCleanup_spec {s0 s : St} (i : Inv s0 s) (e : Sysv) :
    ∃ s', timeCleanup s e = some (s', 0) ∧ Inv s0 s' ∧ s'.var .mutex 0 = s.var .mutex 0 ∧
      s'.var .rwlock 0 = none ∧ s'.var .rwlock 1 = none := by
  obtain ⟨s1, a1, b1, c1, d1⟩ := timeCleanup1_spec i (n := 0) (by decide) e.rw0
  obtain ⟨s2, a2, b2, c2, d2⟩ := timeCleanup1_spec b1 (n := 1) (by decide) e.rw1
  refine ⟨s2, ?_, b2, ?_, ?_, d2⟩
  · unfold timeCleanup
    simp only [Option.bind_eq_bind, a1, a2, Option.bind_some]
  · rw [c2 _ _ (by simp), c1 _ _ (by simp)]
  · rw [c2 _ _ (by simp), d1]

theorem xlogInit_spec {s0 s : St} (i : Inv s0 s) (e : Env) :
    ∃ s', xlogInit s e = some (s', if s.var .mutex 0 = none then 0 else 1) ∧ Inv s0 s' ∧
      (∀ n, s'.var .rwlock n = s.var .rwlock n) ∧
      (s'.var .mutex 0 ≠ none ↔ s.var .mutex 0 ≠ none ∨ Ok e) := by
  unfold xlogInit
  by_cases h : s.var .mutex 0 = none
  · obtain ⟨s', r, a, b, c, d⟩ := i.create Slot.mtx h (c := .mutexInit (some 0)) rfl e
    rw [if_neg (by simpa using h), if_pos h]
    have a : mutexInit s (some 0) e = some (s', r) := a
    rw [a]
    exact ⟨s', rfl, b, fun n => c _ _ (by simp), by rw [d]; simp [h]⟩
  · rw [if_pos h, if_neg h]
    exact ⟨s, rfl, i, fun _ => rfl, by simp [h]⟩

theorem xlogCleanup_spec {s0 s : St} (i : Inv s0 s) (e : Env) :
    ∃ s', xlogCleanup s e = some (s', if s.var .mutex 0 = none then 1 else 0) ∧ Inv s0 s' ∧
      (∀ n, s'.var .rwlock n = s.var .rwlock n) ∧ s'.var .mutex 0 = none := by
  unfold xlogCleanup
  by_cases h : s.var .mutex 0 = none
  · rw [if_pos h, if_pos h]
    exact ⟨s, rfl, i, fun _ => rfl, h⟩
  · obtain ⟨s', r, a, b, c, d⟩ := i.destroy Slot.mtx h (c := .mutexDestroy (some 0)) rfl e
    rw [if_neg h, if_neg h]
    have a : mutexDestroy s (some 0) e = some (s', r) := a
    rw [a]
    refine ⟨s', ?_, b, fun n => c _ _ (by simp), d⟩
    simp only [Option.map_some, setVar_none d]

/-- the users of the logger's lock: locked and unlocked, once, if there is one -/
theorem useXlog_spec {s0 s : St} (i : Inv s0 s) (e f : Env) :
    ∃ s', useXlog s e f = some s' ∧ Inv s0 s' ∧ s'.var = s.var ∧
      s'.trace = s.trace ++ (match s.var .mutex 0 with
        | none => []
        | some p => [⟨p, .pthread_mutex_lock, e.ret⟩, ⟨p, .pthread_mutex_unlock, f.ret⟩]) := by
  unfold useXlog
  cases h : s.var .mutex 0 with
  | none => exact ⟨s, by simp [h], i, rfl, by simp⟩
  | some p =>
    obtain ⟨s1, a1, b1, c1, d1⟩ := i.use h (c := .mutexLock (some 0)) rfl e
    obtain ⟨s2, a2, b2, c2, d2⟩ := b1.use (k := .mutex) (v := 0) (p := p) (by rw [c1, h]) (c := .mutexUnlock (some 0)) rfl f
    have a1 : mutexLock s (some 0) e = some (s1, e.ret) := a1
    have a2 : mutexUnlock s1 (some 0) f = some (s2, f.ret) := a2
    refine ⟨s2, ?_, b2, by rw [c2, c1], by rw [d2, d1]; simp⟩
    have h1 : s1.var .mutex 0 ≠ none := by rw [c1, h]; exact fun h => nomatch h
    simp [a1, h1, a2]

/-- the users of a time cache's lock -/
theorem useTime_spec {s0 s : St} (i : Inv s0 s) (n : Nat) (wr : Bool) (e f : Env) :
    ∃ s', useTime s n wr e f = some s' ∧ Inv s0 s' ∧ s'.var = s.var ∧
      s'.trace = s.trace ++ (match s.var .rwlock n with
        | none => []
        | some p => [⟨p, if wr then .pthread_rwlock_wrlock else .pthread_rwlock_rdlock, e.ret⟩,
            ⟨p, .pthread_rwlock_unlock, f.ret⟩]) := by
  unfold useTime
  cases h : s.var .rwlock n with
  | none =>
    refine ⟨s, ?_, i, rfl, by simp⟩
    cases wr <;> simp [rwlockWrlock, rwlockRdlock, rwlockUnlock, h]
  | some p =>
    have key : ∃ s1, (if wr then rwlockWrlock s (some n) e else rwlockRdlock s (some n) e) = some (s1, e.ret) ∧
        Inv s0 s1 ∧ s1.var = s.var ∧
        s1.trace = s.trace ++ [⟨p, if wr then .pthread_rwlock_wrlock else .pthread_rwlock_rdlock, e.ret⟩] := by
      cases wr with
      | true => exact i.use h (c := .rwlockWrlock (some n)) rfl e
      | false => exact i.use h (c := .rwlockRdlock (some n)) rfl e
    obtain ⟨s1, a1, b1, c1, d1⟩ := key
    obtain ⟨s2, a2, b2, c2, d2⟩ := b1.use (k := .rwlock) (v := n) (p := p) (by rw [c1, h]) (c := .rwlockUnlock (some n)) rfl f
    have a2 : rwlockUnlock s1 (some n) f = some (s2, f.ret) := a2
    refine ⟨s2, ?_, b2, by rw [c2, c1], by rw [d2, d1]; simp⟩
    simp only [Option.bind_eq_bind, a1, Option.bind_some, a2, Option.map_some]

/-- `lcu_global_init` when it is not the first -/
theorem lcuInit_again (g : G) (e : Sysv) (h : g.times ≠ 0) :
    lcuInit g e = some (⟨g.p, g.times + 1⟩, 0) := by
  unfold lcuInit
  have : g.times > 0 := UInt32.pos_iff_ne_zero.2 h
  simp [this]

/-- `lcu_global_init` when the counter is 0 -/
theorem lcuInit_first {s0 : St} {g : G} (i : Inv s0 g.p) (e : Sysv) (h : g.times = 0) :
    ∃ s', lcuInit g e = some (⟨s', 1⟩, if g.p.var .mutex 0 = none then 0 else 1) ∧ Inv s0 s' ∧
      (s'.var .rwlock 0 ≠ none ↔ g.p.var .rwlock 0 ≠ none ∨ Ok e.rw0) ∧
      (s'.var .rwlock 1 ≠ none ↔ g.p.var .rwlock 1 ≠ none ∨ Ok e.rw1) ∧
      (s'.var .mutex 0 ≠ none ↔ g.p.var .mutex 0 ≠ none ∨ Ok e.mtx) := by
  obtain ⟨s1, a1, b1, c1, d1, e1⟩ := timeInit_spec i e
  obtain ⟨s2, a2, b2, c2, d2⟩ := xlogInit_spec b1 e.mtx
  refine ⟨s2, ?_, b2, by rw [c2, d1], by rw [c2, e1], by rw [d2, c1]⟩
  unfold lcuInit
  simp only [h, Option.bind_eq_bind]
  rw [if_neg (by decide)]
  simp only [a1, a2, Option.bind_some, orI, if_true, c1]
  rfl

/-- `lcu_global_cleanup` when the counter is 0 -/
theorem lcuCleanup_none (g : G) (e : Sysv) (h : g.times = 0) : lcuCleanup g e = some (g, 0) := by
  unfold lcuCleanup
  rw [if_pos h]

/-- `lcu_global_cleanup` when it is not the last -/
theorem lcuCleanup_more (g : G) (e : Sysv) (h : g.times ≠ 0) (h1 : g.times - 1 ≠ 0) :
    lcuCleanup g e = some (⟨g.p, g.times - 1⟩, 0) := by
  unfold lcuCleanup
  rw [if_neg h]
  have : g.times - 1 > 0 := UInt32.pos_iff_ne_zero.2 h1
  simp [this]

/-- the last `lcu_global_cleanup` -/
theorem lcuCleanup_last {s0 : St} {g : G} (i : Inv s0 g.p) (e : Sysv) (h : g.times = 1) :
    ∃ s', lcuCleanup g e = some (⟨s', 0⟩, if g.p.var .mutex 0 = none then 1 else 0) ∧ Inv s0 s' ∧
      s'.var .rwlock 0 = none ∧ s'.var .rwlock 1 = none ∧ s'.var .mutex 0 = none := by
  obtain ⟨s1, a1, b1, c1, d1⟩ := xlogCleanup_spec i e.mtx
  obtain ⟨s2, a2, b2, c2, d2, e2⟩ := timeCleanup_spec b1 e
  refine ⟨s2, ?_, b2, d2, e2, by rw [c2, d1]⟩
  unfold lcuCleanup
  rw [if_neg (by rw [h]; decide)]
  simp only [h, Option.bind_eq_bind]
  rw [if_neg (by decide)]
  simp only [a1, a2, Option.bind_some, orI, if_true]
  by_cases hm : g.p.var .mutex 0 = none <;> simp [hm]

end Verif.Global
