import Verif.Global.Steps
/-! # C84: `lcu_global_init` / `lcu_global_cleanup` -/
namespace Verif.Global
open Verif.Portable Spec

/-- every call is defined and keeps the heap in order -/
theorem exec_total {s0 : St} {g : G} (i : Inv s0 g.p) (o : Op) :
    ∃ g' r, exec g o = some (g', r) ∧ Inv s0 g'.p := by
  cases o with
  | init e =>
    by_cases h : g.times = 0
    · obtain ⟨s', a, b, _⟩ := lcuInit_first i e h
      exact ⟨_, _, a, b⟩
    · exact ⟨_, _, lcuInit_again g e h, i⟩
  | cleanup e =>
    by_cases h : g.times = 0
    · exact ⟨_, _, lcuCleanup_none g e h, i⟩
    · by_cases h1 : g.times - 1 = 0
      · have : g.times = 1 := by
          have := congrArg (· + 1) h1
          simpa using this
        obtain ⟨s', a, b, _⟩ := lcuCleanup_last i e this
        exact ⟨_, _, a, b⟩
      · exact ⟨_, _, lcuCleanup_more g e h h1, i⟩
  | log e f =>
    obtain ⟨s', a, b, _⟩ := useXlog_spec i e f
    exact ⟨_, _, by simp only [exec, a]; rfl, b⟩
  | time n wr e f =>
    obtain ⟨s', a, b, _⟩ := useTime_spec i n.1 wr e f
    exact ⟨_, _, by simp only [exec, a]; rfl, b⟩
  | xlogInit e =>
    obtain ⟨s', a, b, _⟩ := xlogInit_spec i e
    exact ⟨_, _, by simp only [exec, a]; rfl, b⟩
  | xlogCleanup e =>
    obtain ⟨s', a, b, _⟩ := xlogCleanup_spec i e
    exact ⟨_, _, by simp only [exec, a]; rfl, b⟩
  | timeInit e =>
    obtain ⟨s', a, b, _⟩ := timeInit_spec i e
    exact ⟨_, _, by simp only [exec, a]; rfl, b⟩
  | timeCleanup e =>
    obtain ⟨s', a, b, _⟩ := timeCleanup_spec i e
    exact ⟨_, _, by simp only [exec, a]; rfl, b⟩

theorem run_total {s0 : St} (h : List Op) {g : G} (i : Inv s0 g.p) :
    ∃ g' rs, run g h = some (g', rs) ∧ Inv s0 g'.p := by
  induction h generalizing g with
  | nil => exact ⟨g, [], rfl, i⟩
  | cons o h ih =>
    obtain ⟨g1, r, a, b⟩ := exec_total i o
    obtain ⟨g2, rs, a2, b2⟩ := ih b
    exact ⟨g2, r :: rs, by simp [run, a, a2], b2⟩

/-- **C84** (safety): whatever sequence of these calls a program makes, in whatever order and however often, and
whatever the system answers, no lock is used or destroyed that does not exist; every other handle of the program is
left alone; and the live lock objects are those of the start and those the library's handles refer to: nothing leaks. -/
theorem global_safe {g : G} (st : Start g) (h : List Op) :
    ∃ g' rs, run g h = some (g', rs) ∧
      (∀ k v, ¬ Slot k v → g'.p.var k v = g.p.var k v) ∧
      ∀ q k, (q, k) ∈ g'.p.heap ↔ (q, k) ∈ g.p.heap ∨ ∃ v, Slot k v ∧ g'.p.var k v = some q := by
  obtain ⟨g', rs, a, b⟩ := run_total h (Inv.start st)
  exact ⟨g', rs, a, b.rest, b.heap⟩

/-- **C84** (life of a lock): each lock object is initialised once, used only while it lives, destroyed at most once;
the library's handles refer to living ones. -/
theorem global_life {g g' : G} {rs} (st : Start g) {h : List Op} (hr : run g h = some (g', rs)) (q : Nat) :
    (story q g'.p.trace = [] ∨ (∃ k, Portable.Spec.Living k (story q g'.p.trace)) ∨
      ∃ k, Portable.Spec.Gone k (story q g'.p.trace)) ∧
    ∀ k v, Slot k v → g'.p.var k v = some q → Portable.Spec.Living k (story q g'.p.trace) := by
  obtain ⟨g1, rs1, a, b⟩ := run_total h (Inv.start st)
  rw [hr] at a
  cases a
  refine ⟨?_, fun k v hs hv => (handle_valid b.reach (slot_thread hs) hv).2.1⟩
  rcases life_cycle b.reach q with ⟨k, _, hk⟩ | ⟨_, hk | hk⟩
  · exact .inr (.inl ⟨k, hk⟩)
  · exact .inl hk
  · exact .inr (.inr hk)

/-- the state while `n` initialisations are outstanding -/
structure At (n : Nat) (good : Prop) (g : G) : Prop where
  times : g.times.toNat = n
  zero : n = 0 → ∀ k v, Slot k v → g.p.var k v = none
  pos : good → 0 < n → ∀ k v, Slot k v → g.p.var k v ≠ none

theorem peak_ge (n : Nat) (h : List Op) : n ≤ peak n h := by
  cases h with
  | nil => exact Nat.le_refl _
  | cons o h => cases o <;> exact Nat.le_max_left ..

theorem at_step {s0 : St} {n : Nat} {good : Prop} {g : G} (i : Inv s0 g.p) (a : At n good g) {o : Op}
    (ho : Plain [o]) (hg : good → Good [o]) (hb : peak n [o] < 2 ^ 32) :
    ∃ g' r, exec g o = some (g', r) ∧ Inv s0 g'.p ∧ At (outstanding n [o]) good g' ∧
      (good → r = 0) ∧ ((∃ e, o = .init e) → r = 0) := by
  have ht : g.times = 0 ↔ n = 0 := by
    rw [← a.times]
    constructor
    · intro h; rw [h]; rfl
    · intro h; exact UInt32.toNat_inj.1 h
  rcases ho o (List.mem_singleton.2 rfl) with ⟨e, rfl⟩ | ⟨e, rfl⟩ | ⟨e, f, rfl⟩ | ⟨j, w, e, f, rfl⟩
  · have hb : n + 1 < 2 ^ 32 := Nat.lt_of_le_of_lt (Nat.le_max_right ..) hb
    by_cases h : g.times = 0
    · obtain ⟨s', c, d, p0, p1, p2⟩ := lcuInit_first i e h
      have hm := a.zero (ht.1 h) _ _ Slot.mtx
      rw [if_pos hm] at c
      refine ⟨_, _, c, d, ⟨?_, ?_, ?_⟩, fun _ => rfl, fun _ => rfl⟩
      · show (1 : UInt32).toNat = n + 1
        rw [ht.1 h]; rfl
      · intro hx; exact absurd hx (by simp [outstanding])
      · intro hgd _ k v hs
        obtain ⟨g0, g1, g2⟩ := hg hgd _ (List.mem_singleton.2 rfl) e rfl
        cases hs
        · exact p0.2 (.inr g0)
        · exact p1.2 (.inr g1)
        · exact p2.2 (.inr g2)
    · refine ⟨_, _, lcuInit_again g e h, i, ⟨?_, ?_, ?_⟩, fun _ => rfl, fun _ => rfl⟩
      · show (g.times + 1).toNat = n + 1
        rw [UInt32.toNat_add, a.times]
        exact Nat.mod_eq_of_lt hb
      · intro hx; exact absurd hx (by simp [outstanding])
      · intro hgd _
        exact a.pos hgd (Nat.pos_of_ne_zero fun hx => h (ht.2 hx))
  · by_cases h : g.times = 0
    · refine ⟨_, _, lcuCleanup_none g e h, i, ?_, fun _ => rfl, fun hx => nomatch hx⟩
      have h0 := ht.1 h
      subst h0
      exact a
    · have hn : 0 < n := Nat.pos_of_ne_zero fun hx => h (ht.2 hx)
      by_cases h1 : g.times = 1
      · obtain ⟨s', c, d, p0, p1, p2⟩ := lcuCleanup_last i e h1
        have hn1 : n = 1 := by rw [← a.times, h1]; rfl
        subst hn1
        refine ⟨_, _, c, d, ⟨rfl, ?_, ?_⟩, ?_, fun hx => nomatch hx⟩
        · intro _ k v hs
          cases hs
          · exact p0
          · exact p1
          · exact p2
        · intro _ hx; exact absurd hx (by simp [outstanding])
        · intro hgd
          rw [if_neg (a.pos hgd hn _ _ Slot.mtx)]
      · have hn1 : n ≠ 1 := by
          intro hx
          apply h1
          apply UInt32.toNat_inj.1
          rw [a.times, hx]; rfl
        have hsub : (g.times - 1).toNat = n - 1 := by
          rw [UInt32.toNat_sub_of_le _ _ (by
            rw [UInt32.le_iff_toNat_le, a.times]
            exact hn), a.times]
          rfl
        have hd : g.times - 1 ≠ 0 := by
          intro hx
          rw [hx] at hsub
          have : (0 : UInt32).toNat = 0 := rfl
          omega
        refine ⟨_, _, lcuCleanup_more g e h hd, i, ⟨hsub, ?_, ?_⟩, fun _ => rfl, fun _ => rfl⟩
        · intro hx
          have hx : n - 1 = 0 := hx
          omega
        · intro hgd _
          exact a.pos hgd hn
  · obtain ⟨s', c, d, p0, _⟩ := useXlog_spec i e f
    refine ⟨⟨s', g.times⟩, 0, by simp only [exec, c]; rfl, d, ⟨a.times, ?_, ?_⟩, fun _ => rfl, fun _ => rfl⟩
    · intro hn k v; rw [p0]; exact a.zero hn k v
    · intro hgd hn k v; rw [p0]; exact a.pos hgd hn k v
  · obtain ⟨s', c, d, p0, _⟩ := useTime_spec i j.1 w e f
    refine ⟨⟨s', g.times⟩, 0, by simp only [exec, c]; rfl, d, ⟨a.times, ?_, ?_⟩, fun _ => rfl, fun _ => rfl⟩
    · intro hn k v; rw [p0]; exact a.zero hn k v
    · intro hgd hn k v; rw [p0]; exact a.pos hgd hn k v

theorem outstanding_cons (n : Nat) (o : Op) (h : List Op) :
    outstanding n (o :: h) = outstanding (outstanding n [o]) h := by
  cases o <;> rfl

theorem peak_cons (n : Nat) (o : Op) (h : List Op) :
    peak n [o] ≤ peak n (o :: h) ∧ peak (outstanding n [o]) h ≤ peak n (o :: h) := by
  cases o <;> simp only [peak, outstanding] <;>
    refine ⟨Nat.max_le.2 ⟨Nat.le_max_left .., Nat.le_trans (peak_ge _ h) (Nat.le_max_right ..)⟩, Nat.le_max_right ..⟩

theorem at_run {s0 : St} {good : Prop} (h : List Op) {n : Nat} {g : G} (i : Inv s0 g.p) (a : At n good g)
    (hp : Plain h) (hg : good → Good h) (hb : peak n h < 2 ^ 32) :
    ∃ g' rs, run g h = some (g', rs) ∧ Inv s0 g'.p ∧ At (outstanding n h) good g' ∧
      rs.length = h.length ∧ (good → ∀ r ∈ rs, r = 0) ∧ ∀ e r, (Op.init e, r) ∈ h.zip rs → r = 0 := by
  induction h generalizing n g with
  | nil => exact ⟨g, [], rfl, i, a, rfl, by simp, by simp⟩
  | cons o h ih =>
    have hc := peak_cons n o h
    obtain ⟨g1, r, a1, b1, c1, d1, e1⟩ := at_step (o := o) i a
      (by intro x hx; rw [List.mem_singleton] at hx; subst hx; exact hp _ (List.mem_cons_self ..))
      (by intro hgd x hx; rw [List.mem_singleton] at hx; subst hx; exact hg hgd _ (List.mem_cons_self ..))
      (by omega)
    obtain ⟨g2, rs, a2, b2, c2, d2, e2, f2⟩ := ih b1 c1 (fun x hx => hp x (List.mem_cons_of_mem _ hx))
      (fun hgd x hx => hg hgd x (List.mem_cons_of_mem _ hx)) (by omega)
    refine ⟨g2, r :: rs, by simp [run, a1, a2], b2, ?_, by simp [d2], ?_, ?_⟩
    · rw [outstanding_cons]; exact c2
    · intro hgd x hx
      rcases List.mem_cons.1 hx with rfl | hx
      · exact d1 hgd
      · exact e2 hgd x hx
    · intro e x hx
      rw [List.zip_cons_cons] at hx
      rcases List.mem_cons.1 hx with hx | hx
      · cases hx
        exact e1 ⟨e, rfl⟩
      · exact f2 e x hx

theorem at_start {g : G} (st : Start g) (good : Prop) : At 0 good g :=
  ⟨by rw [st.2.1]; rfl, fun _ => st.2.2, fun _ h => absurd h (by decide)⟩

/-- **C84** (reference counting): in every history of `lcu_global_init`, `lcu_global_cleanup` and uses of the library,
with fewer than 2^32 initialisations outstanding at any time, and locks that can be created: afterwards each of the
three locks exists exactly if initialisations are outstanding, and every call answered 0. -/
theorem global_counted {g : G} (st : Start g) {h : List Op} (hp : Plain h) (hg : Good h) (hb : peak 0 h < 2 ^ 32) :
    ∃ g' rs, run g h = some (g', rs) ∧ rs.length = h.length ∧ (∀ r ∈ rs, r = 0) ∧
      ∀ k v, Slot k v → (g'.p.var k v ≠ none ↔ 0 < outstanding 0 h) := by
  obtain ⟨g', rs, a, _, b, c, d, _⟩ := at_run (good := True) h (Inv.start st) (at_start st _) hp (fun _ => hg) hb
  refine ⟨g', rs, a, c, d trivial, fun k v hs => ⟨fun hv => ?_, fun hn => b.pos trivial hn k v hs⟩⟩
  exact Nat.pos_of_ne_zero fun h0 => hv (b.zero h0 k v hs)

/-- **C84** (no leak): even if some locks could not be created: when as many cleanups as initialisations have been
called, the library holds no lock and the heap is what it was at the start.  `lcu_global_init` always answered 0. -/
theorem global_balanced {g : G} (st : Start g) {h : List Op} (hp : Plain h) (hb : peak 0 h < 2 ^ 32) :
    ∃ g' rs, run g h = some (g', rs) ∧ rs.length = h.length ∧ (∀ e r, (Op.init e, r) ∈ h.zip rs → r = 0) ∧
      (outstanding 0 h = 0 → ∀ x, x ∈ g'.p.heap ↔ x ∈ g.p.heap) := by
  obtain ⟨g', rs, a, b, c, d, _, e⟩ := at_run (good := False) h (Inv.start st) (at_start st _) hp (fun h => h.elim) hb
  refine ⟨g', rs, a, d, e, fun h0 ⟨q, k⟩ => ?_⟩
  rw [b.heap q k]
  refine ⟨fun hx => hx.elim id fun ⟨v, hs, hv⟩ => ?_, .inl⟩
  rw [c.zero h0 k v hs] at hv
  cases hv

/-- **C84** (protection): a call of the logger in such a history, made while initialisations are outstanding, locks
one living mutex, then unlocks it; made while none are, it takes no lock. -/
theorem global_log {g : G} (st : Start g) {h : List Op} (hp : Plain h) (hg : Good h) (hb : peak 0 h < 2 ^ 32)
    (e f : Env) :
    ∃ g' rs g'', run g h = some (g', rs) ∧ exec g' (.log e f) = some (g'', 0) ∧
      (0 < outstanding 0 h → ∃ q, Portable.Spec.Living .mutex (story q g'.p.trace) ∧
        g''.p.trace = g'.p.trace ++ [⟨q, .pthread_mutex_lock, e.ret⟩, ⟨q, .pthread_mutex_unlock, f.ret⟩]) ∧
      (outstanding 0 h = 0 → g''.p.trace = g'.p.trace) := by
  obtain ⟨g', rs, a, i, b, _⟩ := at_run (good := True) h (Inv.start st) (at_start st _) hp (fun _ => hg) hb
  obtain ⟨s', c, d, p0, p1⟩ := useXlog_spec i e f
  refine ⟨g', rs, ⟨s', g'.times⟩, a, by simp only [exec, c]; rfl, fun hn => ?_, fun hn => ?_⟩
  · obtain ⟨q, hq⟩ := Option.ne_none_iff_exists'.1 (b.pos trivial hn _ _ Slot.mtx)
    rw [hq] at p1
    exact ⟨q, (handle_valid i.reach (by decide) hq).2.1, p1⟩
  · rw [b.zero hn _ _ Slot.mtx] at p1
    simpa using p1

/-- **C84** (protection): the same for the time caches, with a read or a write lock. -/
theorem global_time {g : G} (st : Start g) {h : List Op} (hp : Plain h) (hg : Good h) (hb : peak 0 h < 2 ^ 32)
    (n : Fin 2) (w : Bool) (e f : Env) :
    ∃ g' rs g'', run g h = some (g', rs) ∧ exec g' (.time n w e f) = some (g'', 0) ∧
      (0 < outstanding 0 h → ∃ q, Portable.Spec.Living .rwlock (story q g'.p.trace) ∧
        g''.p.trace = g'.p.trace ++ [⟨q, if w then .pthread_rwlock_wrlock else .pthread_rwlock_rdlock, e.ret⟩,
          ⟨q, .pthread_rwlock_unlock, f.ret⟩]) ∧
      (outstanding 0 h = 0 → g''.p.trace = g'.p.trace) := by
  obtain ⟨g', rs, a, i, b, _⟩ := at_run (good := True) h (Inv.start st) (at_start st _) hp (fun _ => hg) hb
  obtain ⟨s', c, d, p0, p1⟩ := useTime_spec i n.1 w e f
  refine ⟨g', rs, ⟨s', g'.times⟩, a, by simp only [exec, c]; rfl, fun hn => ?_, fun hn => ?_⟩
  · obtain ⟨q, hq⟩ := Option.ne_none_iff_exists'.1 (b.pos trivial hn _ _ (slot_rw n.2))
    rw [hq] at p1
    exact ⟨q, (handle_valid i.reach (by decide) hq).2.1, p1⟩
  · rw [b.zero hn _ _ (slot_rw n.2)] at p1
    simpa using p1

/-! ## What is wrong -/

/-- the start of a program without other handles -/
def g0 : G := ⟨.init, 0⟩

theorem start0 : Start g0 := ⟨.init, rfl, fun _ _ _ => rfl⟩

def ok : Env := ⟨false, 0⟩
def oks : Sysv := ⟨ok, ok, ok⟩
/-- memory runs out -/
def bad : Env := ⟨true, 0⟩

/-- a history with nested initialisations and a cleanup too many: the hypotheses of the theorems are met -/
def demo : List Op := [.cleanup oks, .init oks, .log ok ok, .init oks, .cleanup oks, .time 1 true ok ok]

theorem demo_ok : Plain demo ∧ Good demo ∧ peak 0 demo < 2 ^ 32 ∧ outstanding 0 demo = 1 := by
  refine ⟨?_, ?_, by decide, rfl⟩
  · intro o ho
    simp only [demo, List.mem_cons, List.not_mem_nil, or_false] at ho
    rcases ho with rfl | rfl | rfl | rfl | rfl | rfl <;> simp
  · intro o ho e he
    subst he
    simp only [demo, List.mem_cons, List.not_mem_nil, or_false, reduceCtorEq, false_or, Op.init.injEq] at ho
    rcases ho with rfl | rfl <;> exact ⟨⟨rfl, rfl⟩, ⟨rfl, rfl⟩, ⟨rfl, rfl⟩⟩

/-- **C84, finding**: if a lock cannot be created, `lcu_global_init` answers 0 all the same, and the library works
without lock; the fact comes out at the last cleanup, which answers 1. -/
theorem failure_silent :
    (run g0 [.init ⟨ok, ok, bad⟩]).map (fun x => (x.1.p.var .mutex 0, x.2)) = some (none, [0]) ∧
    (run g0 [.init ⟨ok, ok, bad⟩, .cleanup oks]).map (·.2) = some [0, 1] := by
  constructor <;> rfl

/-- **C84, finding**: `LOG_DEINIT` (inc/log/logger_facade_xlog.h:8) destroys the logger's mutex although
initialisations are outstanding: one module of a program takes the lock away from the others. -/
theorem deinit_takes_lock :
    (run g0 [.init oks, .xlogInit ok, .xlogCleanup ok]).map (fun x => (x.1.p.var .mutex 0, x.1.times, x.2)) =
      some (none, 1, [0, 1, 0]) := by rfl

theorem again_many (k : Nat) {g : G} (h0 : g.times ≠ 0) (h : g.times.toNat + k ≤ 2 ^ 32) :
    ∃ g' rs, run g (List.replicate k (.init oks)) = some (g', rs) ∧ g'.p = g.p ∧
      g'.times.toNat = (g.times.toNat + k) % 2 ^ 32 := by
  induction k generalizing g with
  | zero => exact ⟨g, [], rfl, rfl, (Nat.mod_eq_of_lt g.times.toNat_lt).symm⟩
  | succ k ih =>
    have a : exec g (.init oks) = _ := lcuInit_again g oks h0
    have hn : (g.times + 1).toNat = (g.times.toNat + 1) % 2 ^ 32 := by rw [UInt32.toNat_add]; rfl
    by_cases hk : k = 0
    · subst hk
      exact ⟨⟨g.p, g.times + 1⟩, [0], by simp [run, a], rfl, hn⟩
    · have hlt : g.times.toNat + 1 < 2 ^ 32 := by omega
      rw [Nat.mod_eq_of_lt hlt] at hn
      obtain ⟨g', rs, b, c, d⟩ := ih (g := ⟨g.p, g.times + 1⟩)
        (by
          intro hx
          have hx : g.times + 1 = 0 := hx
          rw [hx] at hn
          have : (0 : UInt32).toNat = 0 := rfl
          omega)
        (by show (g.times + 1).toNat + k ≤ _; omega)
      refine ⟨g', 0 :: rs, ?_, c, ?_⟩
      · rw [List.replicate_succ]
        simp [run, a, b]
      · rw [d]
        show ((g.times + 1).toNat + k) % _ = _
        rw [hn]
        congr 1
        omega

theorem cleanup_zero (k : Nat) {g : G} (h : g.times = 0) :
    ∃ rs, run g (List.replicate k (.cleanup oks)) = some (g, rs) := by
  induction k with
  | zero => exact ⟨[], rfl⟩
  | succ k ih =>
    obtain ⟨rs, a⟩ := ih
    have b : exec g (.cleanup oks) = _ := lcuCleanup_none g oks h
    exact ⟨0 :: rs, by rw [List.replicate_succ]; simp [run, b, a]⟩

theorem run_append (h h' : List Op) (g : G) :
    run g (h ++ h') = (run g h).bind fun x => (run x.1 h').map fun y => (y.1, x.2 ++ y.2) := by
  induction h generalizing g with
  | nil => simp [run]
  | cons o h ih =>
    simp only [List.cons_append, run]
    cases exec g o with
    | none => rfl
    | some x =>
      simp only [Option.bind_some]
      rw [ih]
      cases run x.1 h with
      | none => rfl
      | some y =>
        simp only [Option.bind_some, Option.map_some]
        cases run y.1 h' <;> simp

/-- **C84, limit**: the bound on outstanding initialisations is needed: after 2^32 of them the counter is 0 again, and
no number of cleanups ever destroys the locks. -/
theorem counter_wraps (m k : Nat) (hm : m = 2 ^ 32) :
    ∃ g' rs, run g0 (List.replicate m (.init oks) ++ List.replicate k (.cleanup oks)) =
      some (g', rs) ∧ ∀ s v, Slot s v → g'.p.var s v ≠ none := by
  obtain ⟨s', a, _, p0, p1, p2⟩ := lcuInit_first (Inv.start start0) oks rfl
  have a : exec g0 (.init oks) = some (⟨s', 1⟩, 0) := a
  have one : (1 : UInt32).toNat = 1 := rfl
  cases m with
  | zero => omega
  | succ n =>
    obtain ⟨g1, rs1, b, c, d⟩ := again_many n (g := ⟨s', 1⟩) (show (1 : UInt32) ≠ 0 by decide)
      (show (1 : UInt32).toNat + _ ≤ _ by omega)
    have hz : g1.times = 0 := by
      apply UInt32.toNat_inj.1
      have d : g1.times.toNat = ((1 : UInt32).toNat + n) % 2 ^ 32 := d
      rw [d, one, Nat.add_comm 1 n, hm, Nat.mod_self]
      rfl
    obtain ⟨rs2, e⟩ := cleanup_zero k hz
    refine ⟨g1, 0 :: (rs1 ++ rs2), ?_, ?_⟩
    · rw [List.replicate_succ, List.cons_append]
      show (exec g0 (.init oks)).bind _ = _
      rw [a]
      simp only [Option.bind_some]
      rw [run_append, b]
      simp [e]
    · intro s v hs
      rw [c]
      cases hs
      · exact p0.2 (.inr ⟨rfl, rfl⟩)
      · exact p1.2 (.inr ⟨rfl, rfl⟩)
      · exact p2.2 (.inr ⟨rfl, rfl⟩)

end Verif.Global
