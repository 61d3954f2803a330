import Verif.Global.Props
/-!
# `lcu_global_init` / `lcu_global_cleanup` called from several threads

The counter and the handles are shared and unprotected (src/lcu.c:6 is `volatile`, not atomic): each load and each
store of the counter, each test of a handle, each creation and each destruction is one step of its thread.  A creation
(`portable_*_init`) or a destruction after its handle was read is one step: fewer interleavings than there are, so
every bad execution below is one of the code.  The system creates all locks.
-/
namespace Verif.Global.Conc
open Verif.Portable Spec

/-- where a thread is -/
inductive Pc where
  /-- calling `lcu_global_init`, src/lcu.c:15, before the load of the counter -/
  | i0
  /-- the counter was `c`, before the store of `c + 1`, src/lcu.c:15 -/
  | i1 (c : UInt32)
  /-- before the test of handle `j`: src/time/time_util.c:139 (`j` = 0, 1), src/log/xlog.c:120 (`j` = 2) -/
  | iChk (j : Nat)
  /-- handle `j` was NULL, before the creation: src/time/time_util.c:143, src/log/xlog.c:124 -/
  | iNew (j : Nat)
  /-- calling `lcu_global_cleanup`, src/lcu.c:27, before the comparison with 0 -/
  | c0
  /-- before the load for `--g_init_times`, src/lcu.c:27 -/
  | c1
  /-- the counter was `c`, before the store of `c - 1` -/
  | c2 (c : UInt32)
  /-- before the test of handle `j`, now in the order mutex (0), caches (1, 2): src/log/xlog.c:130,
  src/time/time_util.c:155; `r`: the answer of `xlog_global_cleanup` -/
  | cChk (j : Nat) (r : Int)
  /-- handle `j` was `q`, before the destruction -/
  | cKill (j : Nat) (r : Int) (q : Nat)
  /-- returned -/
  | done (r : Int)
  deriving DecidableEq

/-- the handle created as number `j` of `lcu_global_init`, with its creation -/
def create (s : St) : Nat → Option St
  | 0 => (rwlockInit s (some 0) ok).map (·.1)
  | 1 => (rwlockInit s (some 1) ok).map (·.1)
  | _ => (mutexInit s (some 0) ok).map (·.1)

def handleI (s : St) : Nat → Option Nat
  | 0 => s.var .rwlock 0
  | 1 => s.var .rwlock 1
  | _ => s.var .mutex 0

/-- the handle destroyed as number `j` of `lcu_global_cleanup` -/
def handleC (s : St) : Nat → Option Nat
  | 0 => s.var .mutex 0
  | 1 => s.var .rwlock 0
  | _ => s.var .rwlock 1

/-- `portable_*_destroy` after `*lock` was read as `q`, then `… = NULL`: src/thread/portable_thread_posix.c:150-154,
195-199, src/log/xlog.c:135, src/time/time_util.c:160 -/
def destroy (s : St) (j q : Nat) : Option St :=
  match j with
  | 0 => do
    let s ← s.prim .mutex (some q) .pthread_mutex_destroy 0
    let s ← s.free .mutex q
    some ((s.setVar .mutex 0 none).setVar .mutex 0 none)
  | 1 => do
    let s ← s.prim .rwlock (some q) .pthread_rwlock_destroy 0
    let s ← s.free .rwlock q
    some ((s.setVar .rwlock 0 none).setVar .rwlock 0 none)
  | _ => do
    let s ← s.prim .rwlock (some q) .pthread_rwlock_destroy 0
    let s ← s.free .rwlock q
    some ((s.setVar .rwlock 1 none).setVar .rwlock 1 none)

/-- after handle `j` of an initialisation; `r`: the answer if it was the last -/
def nextI (j : Nat) (r : Int) : Pc := if j < 2 then .iChk (j + 1) else .done r
/-- after handle `j` of a cleanup -/
def nextC (j : Nat) (r : Int) : Pc := if j < 2 then .cChk (j + 1) r else .done r

/-- one step of a thread; `none` = undefined behaviour (a lock is destroyed that does not exist) -/
def tstep (g : G) : Pc → Option (G × Pc)
  | .i0 => some (g, .i1 g.times)
  | .i1 c => some ({ g with times := c + 1 }, if c > 0 then .done 0 else .iChk 0)
  | .iChk j => some (g, if handleI g.p j ≠ none then nextI j 1 else .iNew j)
  | .iNew j => (create g.p j).map fun s => ({ g with p := s }, nextI j 0)
  | .c0 => some (g, if g.times = 0 then .done 0 else .c1)
  | .c1 => some (g, .c2 g.times)
  | .c2 c => some ({ g with times := c - 1 }, if c - 1 > 0 then .done 0 else .cChk 0 0)
  | .cChk j r => some (g, match handleC g.p j with
      | none => nextC j (if j = 0 then 1 else r)
      | some q => .cKill j r q)
  | .cKill j r q => (destroy g.p j q).map fun s => ({ g with p := s }, nextC j r)
  | .done r => some (g, .done r)

/-- one step of thread `i` -/
def sched1 (x : G × List Pc) (i : Nat) : Option (G × List Pc) :=
  match x.2[i]? with
  | none => some x
  | some pc => (tstep x.1 pc).map fun y => (y.1, x.2.set i y.2)

/-- an execution: the threads take steps in the order of the schedule -/
def sched (x : G × List Pc) : List Nat → Option (G × List Pc)
  | [] => some x
  | i :: is => (sched1 x i).bind fun x => sched x is

/-! ## One call at a time -/

/-- the thread steps alone -/
inductive Solo : G × Pc → G × Pc → Prop
  | refl (x) : Solo x x
  | step {g pc y z} : tstep g pc = some y → Solo y z → Solo (g, pc) z

theorem Solo.trans {x y z : G × Pc} (h : Solo x y) (h' : Solo y z) : Solo x z := by
  induction h with
  | refl => exact h'
  | step a _ ih => exact .step a (ih h')

theorem solo_time {g : G} {n : Nat} (hn : n < 2) {s : St} (h : timeInit1 g.p n ok = some s) :
    Solo (g, .iChk n) (⟨s, g.times⟩, .iChk (n + 1)) := by
  unfold timeInit1 at h
  have e : handleI g.p n = g.p.var .rwlock n := by
    match n, hn with
    | 0, _ => rfl
    | 1, _ => rfl
  split at h
  · next hv =>
    cases h
    refine .step (y := (g, .iChk (n + 1))) ?_ (.refl _)
    simp [tstep, e, hv, nextI, hn]
  · next hv =>
    refine .step (y := (g, .iNew n)) (by simp [tstep, e] at hv ⊢; intro h; exact absurd hv h) ?_
    refine .step (y := (⟨s, g.times⟩, .iChk (n + 1))) ?_ (.refl _)
    have c : create g.p n = some s := by
      match n, hn with
      | 0, _ => exact h
      | 1, _ => exact h
    simp [tstep, c, nextI, hn]

/-- a call of `lcu_global_init` whose steps are not interleaved with those of another is the function of the
sequential model -/
theorem solo_init {g g' : G} {r : Int} (h : lcuInit g oks = some (g', r)) : Solo (g, .i0) (g', .done r) := by
  refine .step (y := (g, .i1 g.times)) rfl ?_
  refine .step (y := (⟨g.p, g.times + 1⟩, if g.times > 0 then .done 0 else .iChk 0)) rfl ?_
  unfold lcuInit at h
  simp only at h
  split at h
  · next hp =>
    cases h
    rw [if_pos hp]
    exact .refl _
  · next hp =>
    rw [if_neg hp]
    unfold timeInit at h
    simp only [Option.bind_eq_bind, Option.bind_assoc, Option.bind_some, Option.bind_eq_some_iff] at h
    obtain ⟨s1, a1, s2, a2, ⟨s3, r3⟩, a3, a4⟩ := h
    cases a4
    refine (solo_time (g := ⟨g.p, g.times + 1⟩) (n := 0) (by decide) a1).trans ?_
    refine (solo_time (g := ⟨s1, g.times + 1⟩) (n := 1) (by decide) a2).trans ?_
    unfold xlogInit at a3
    split at a3
    · next hv =>
      cases a3
      refine .step (y := (⟨s2, g.times + 1⟩, .done 1)) ?_ (.refl _)
      simp [tstep, handleI, hv, nextI]
    · next hv =>
      simp only [Option.map_eq_some_iff] at a3
      obtain ⟨⟨s3', r'⟩, b, c⟩ := a3
      cases c
      refine .step (y := (⟨s2, g.times + 1⟩, .iNew 2)) (by simp [tstep, handleI, nextI] at hv ⊢; exact hv) ?_
      refine .step (y := (⟨s3', g.times + 1⟩, .done 0)) ?_ (.refl _)
      have b : mutexInit s2 (some 0) ok = some (s3', r') := b
      simp [tstep, create, b, nextI]

theorem solo_cleanup1 {g : G} {r : Int} {n : Nat} (hn : n < 2) {s : St} (h : timeCleanup1 g.p n ok = some s) :
    Solo (g, .cChk (n + 1) r) (⟨s, g.times⟩, nextC (n + 1) r) := by
  unfold timeCleanup1 at h
  have e : handleC g.p (n + 1) = g.p.var .rwlock n := by
    match n, hn with
    | 0, _ => rfl
    | 1, _ => rfl
  split at h
  · next hv =>
    cases h
    refine .step (y := (g, nextC (n + 1) r)) ?_ (.refl _)
    simp [tstep, e, hv]
  · next hv =>
    obtain ⟨q, hq⟩ := Option.ne_none_iff_exists'.1 hv
    refine .step (y := (g, .cKill (n + 1) r q)) (by simp [tstep, e, hq]) ?_
    refine .step (y := (⟨s, g.times⟩, nextC (n + 1) r)) ?_ (.refl _)
    have c : destroy g.p (n + 1) q = some s := by
      simp only [rwlockDestroy, hq, Option.map_eq_some_iff, Option.bind_eq_bind, Option.bind_eq_some_iff] at h
      obtain ⟨x, ⟨s1, a1, s2, a2, a3⟩, a4⟩ := h
      cases a3
      have a1 : g.p.prim .rwlock (some q) .pthread_rwlock_destroy 0 = some s1 := a1
      match n, hn with
      | 0, _ => simp only [destroy, Option.bind_eq_bind, a1, a2, Option.bind_some, ← a4]
      | 1, _ => simp only [destroy, Option.bind_eq_bind, a1, a2, Option.bind_some, ← a4]
    simp [tstep, c]

/-- the same for `lcu_global_cleanup` -/
theorem solo_cleanup {g g' : G} {r : Int} (h : lcuCleanup g oks = some (g', r)) : Solo (g, .c0) (g', .done r) := by
  unfold lcuCleanup at h
  split at h
  · next hz =>
    cases h
    exact .step (y := (g, .done 0)) (by simp [tstep, hz]) (.refl _)
  · next hz =>
    refine .step (y := (g, .c1)) (by simp [tstep, hz]) ?_
    refine .step (y := (g, .c2 g.times)) rfl ?_
    refine .step (y := (⟨g.p, g.times - 1⟩, if g.times - 1 > 0 then .done 0 else .cChk 0 0)) rfl ?_
    simp only at h
    split at h
    · next hp =>
      cases h
      rw [if_pos hp]
      exact .refl _
    · next hp =>
      rw [if_neg hp]
      unfold timeCleanup at h
      simp only [Option.bind_eq_bind, Option.bind_assoc, Option.bind_some, Option.bind_eq_some_iff] at h
      obtain ⟨⟨s1, r1⟩, a1, s2, a2, s3, a3, a4⟩ := h
      cases a4
      have or0 : orI r1 0 = r1 := by unfold orI; split <;> simp_all
      rw [or0]
      refine Solo.trans (y := (⟨s1, g.times - 1⟩, .cChk 1 r1)) ?_ ?_
      · unfold xlogCleanup at a1
        split at a1
        · next hv =>
          cases a1
          refine .step (y := (⟨g.p, g.times - 1⟩, .cChk 1 1)) ?_ (.refl _)
          simp [tstep, handleC, hv, nextC]
        · next hv =>
          obtain ⟨q, hq⟩ := Option.ne_none_iff_exists'.1 hv
          refine .step (y := (⟨g.p, g.times - 1⟩, .cKill 0 0 q)) (by simp [tstep, handleC, hq]) ?_
          simp only [mutexDestroy, hq, Option.map_eq_some_iff, Option.bind_eq_bind, Option.bind_eq_some_iff] at a1
          obtain ⟨x, ⟨t1, b1, t2, b2, b3⟩, b4⟩ := a1
          cases b3
          cases b4
          have b1 : g.p.prim .mutex (some q) .pthread_mutex_destroy 0 = some t1 := b1
          have c : destroy g.p 0 q = some ((t2.setVar .mutex 0 none).setVar .mutex 0 none) := by
            simp only [destroy, Option.bind_eq_bind, b1, b2, Option.bind_some]
          exact .step (y := (⟨(t2.setVar .mutex 0 none).setVar .mutex 0 none, g.times - 1⟩, .cChk 1 0))
            (by simp [tstep, c, nextC]) (.refl _)
      · refine (solo_cleanup1 (g := ⟨s1, g.times - 1⟩) (r := r1) (n := 0) (by decide) a2).trans ?_
        exact solo_cleanup1 (g := ⟨s2, g.times - 1⟩) (r := r1) (n := 1) (by decide) a3

/-! ## What may be done concurrently -/

/-- the thread has stored the counter (or returned) -/
def past : Pc → Bool
  | .i0 => false
  | .i1 _ => false
  | _ => true

/-- the state of an initialisation while the locks exist: `t0` the counter at the start, `d` stores so far -/
structure Calm (t0 d : Nat) (g : G) (pcs : List Pc) : Prop where
  times : 0 < g.times.toNat ∧ g.times.toNat ≤ t0 + d
  all : ∀ pc ∈ pcs, pc = .i0 ∨ (∃ c, pc = .i1 c ∧ 0 < c.toNat ∧ c.toNat ≤ t0 + d) ∨ pc = .done 0
  count : pcs.countP past = d

theorem countP_set {l : List Pc} {i : Nat} {a b : Pc} (h : l[i]? = some a) :
    (l.set i b).countP past + (past a).toNat = l.countP past + (past b).toNat := by
  induction l generalizing i with
  | nil => simp at h
  | cons x l ih =>
    cases i with
    | zero =>
      simp only [List.getElem?_cons_zero, Option.some.injEq] at h
      subst h
      cases hx : past x <;> cases hb : past b <;> simp [hx, hb]
    | succ i =>
      have := ih (i := i) (by simpa using h)
      simp only [List.set_cons_succ, List.countP_cons]
      omega

theorem calm_step {t0 d : Nat} {g : G} {pcs : List Pc} (h : Calm t0 d g pcs) (hb : t0 + pcs.length < 2 ^ 32) (i : Nat) :
    ∃ t pcs' d', sched1 (g, pcs) i = some (⟨g.p, t⟩, pcs') ∧ Calm t0 d' ⟨g.p, t⟩ pcs' ∧ pcs'.length = pcs.length := by
  unfold sched1
  cases hi : pcs[i]? with
  | none => exact ⟨g.times, pcs, d, rfl, h, rfl⟩
  | some pc =>
    have cnt := fun b => countP_set (b := b) hi
    have mem := List.mem_of_getElem? hi
    rcases h.all pc mem with rfl | ⟨c, rfl, c1, c2⟩ | rfl
    · refine ⟨g.times, pcs.set i (.i1 g.times), d, rfl, ⟨h.times, ?_, ?_⟩, by simp⟩
      · intro x hx
        rcases List.mem_or_eq_of_mem_set hx with hx | rfl
        · exact h.all x hx
        · exact .inr (.inl ⟨_, rfl, h.times⟩)
      · have := cnt (.i1 g.times)
        simp only [past, Bool.toNat_false, Nat.add_zero] at this
        rw [this]
        exact h.count
    · have hlt : d < pcs.length := by
        have h1 := h.count
        have h2 : pcs.countP past < pcs.length := by
          have hle := List.countP_le_length (p := past) (l := pcs)
          refine Nat.lt_of_le_of_ne hle fun he => ?_
          exact absurd (List.countP_eq_length.1 he _ mem) (by simp [past])
        omega
      have hc : (c + 1).toNat = c.toNat + 1 := by
        rw [UInt32.toNat_add]
        exact Nat.mod_eq_of_lt (show c.toNat + 1 < 2 ^ 32 by omega)
      have hp : c > 0 := UInt32.lt_iff_toNat_lt.2 c1
      refine ⟨c + 1, pcs.set i (.done 0), d + 1, ?_, ⟨?_, ?_, ?_⟩, by simp⟩
      · simp [tstep, hp]
      · show 0 < (c + 1).toNat ∧ (c + 1).toNat ≤ t0 + (d + 1)
        omega
      · intro x hx
        rcases List.mem_or_eq_of_mem_set hx with hx | rfl
        · rcases h.all x hx with rfl | ⟨c', rfl, a, b⟩ | rfl
          · exact .inl rfl
          · exact .inr (.inl ⟨c', rfl, a, by omega⟩)
          · exact .inr (.inr rfl)
        · exact .inr (.inr rfl)
      · have := cnt (.done 0)
        simp only [past, Bool.toNat_false, Bool.toNat_true, Nat.add_zero] at this
        rw [this, h.count]
    · refine ⟨g.times, pcs.set i (.done 0), d, rfl, ⟨h.times, ?_, ?_⟩, by simp⟩
      · intro x hx
        rcases List.mem_or_eq_of_mem_set hx with hx | rfl
        · exact h.all x hx
        · exact .inr (.inr rfl)
      · have := cnt (.done 0)
        have hc := h.count
        omega

/-- **C84** (concurrent initialisations): once one `lcu_global_init` has returned and while it is not undone, any
number of threads may call `lcu_global_init` at the same time, in any interleaving: no lock is created or destroyed,
every call that returns answers 0, and the counter stays positive.  (Fewer than 2^32 calls.) -/
theorem concurrent_inits (g : G) (n : Nat) (h0 : g.times ≠ 0) (hb : g.times.toNat + n < 2 ^ 32) (is : List Nat) :
    ∃ t pcs, sched (g, List.replicate n .i0) is = some (⟨g.p, t⟩, pcs) ∧ t ≠ 0 ∧ pcs.length = n ∧
      ∀ pc ∈ pcs, ∀ r, pc = .done r → r = 0 := by
  have key : ∀ (is : List Nat) (g : G) (pcs : List Pc) (t0 d : Nat), Calm t0 d g pcs → t0 + pcs.length < 2 ^ 32 →
      ∃ t pcs' d', sched (g, pcs) is = some (⟨g.p, t⟩, pcs') ∧ Calm t0 d' ⟨g.p, t⟩ pcs' ∧ pcs'.length = pcs.length := by
    intro is
    induction is with
    | nil => exact fun g pcs t0 d h _ => ⟨g.times, pcs, d, rfl, h, rfl⟩
    | cons i is ih =>
      intro g pcs t0 d h hb
      obtain ⟨t1, p1, d1, a1, b1, c1⟩ := calm_step h hb i
      obtain ⟨t2, p2, d2, a2, b2, c2⟩ := ih ⟨g.p, t1⟩ p1 t0 d1 b1 (by omega)
      exact ⟨t2, p2, d2, by simp [sched, a1, a2], b2, by omega⟩
  have hpos : 0 < g.times.toNat := Nat.pos_of_ne_zero fun h => h0 (UInt32.toNat_inj.1 h)
  obtain ⟨t, pcs, d, a, b, c⟩ := key is g (List.replicate n .i0) g.times.toNat 0
    ⟨⟨hpos, by omega⟩, fun pc hpc => .inl (List.eq_of_mem_replicate hpc), by
      rw [List.countP_eq_zero]
      intro x hx
      rw [List.eq_of_mem_replicate hx]
      simp [past]⟩ (by simpa using hb)
  refine ⟨t, pcs, a, ?_, by simpa using c, ?_⟩
  · rintro rfl
    exact absurd b.times.1 (show ¬ 0 < (0 : UInt32).toNat by decide)
  · rintro _ hpc r rfl
    rcases b.all _ hpc with h | ⟨_, h, _⟩ | h
    · cases h
    · cases h
    · cases h; rfl

/-! ## What may not -/

/-- **C84, finding**: a second thread's `lcu_global_init` may return 0 before the first thread has created a lock. -/
theorem early_return :
    (sched (g0, [.i0, .i0]) [0, 0, 1, 1]).map (fun x => (x.2, x.1.p.var .mutex 0, x.1.p.heap)) =
      some ([.iChk 0, .done 0], none, []) := by rfl

/-- **C84, finding**: two first calls at the same time create every lock twice; after both calls have been undone,
three lock objects are left that nothing refers to. -/
theorem double_creation :
    (sched (g0, [.i0, .i0]) [0, 1, 0, 1, 0, 1, 0, 1, 0, 1, 0, 1, 0, 1, 0, 1]).map
      (fun x => (x.2, x.1.times, x.1.p.heap.length)) = some ([.done 0, .done 0], 1, 6) ∧
    ((sched (g0, [.i0, .i0]) [0, 1, 0, 1, 0, 1, 0, 1, 0, 1, 0, 1, 0, 1, 0, 1]).bind fun x =>
      (run x.1 [.cleanup oks, .cleanup oks]).map fun y => (y.1.times, y.1.p.heap.length)) = some (0, 3) := by
  constructor <;> rfl

/-- the state after one `lcu_global_init` -/
def g1 : G := ((run g0 [.init oks]).map (·.1)).getD g0

/-- **C84, finding**: two cleanups at the same time, one initialisation outstanding (the second call is one too many,
which is harmless otherwise): the counter becomes 4294967295, and the next `lcu_global_init` answers 0 without
creating the locks. -/
theorem counter_underflow :
    (sched (g1, [.c0, .c0]) [0, 1, 0, 0, 0, 0, 0, 0, 0, 0, 1, 1]).map (fun x => (x.2, x.1.times, x.1.p.heap)) =
      some ([.done 0, .done 0], 4294967295, []) ∧
    ((sched (g1, [.c0, .c0]) [0, 1, 0, 0, 0, 0, 0, 0, 0, 0, 1, 1]).bind fun x =>
      (run x.1 [.cleanup oks, .init oks]).map fun y => (y.2, y.1.p.heap)) = some ([0, 0], []) := by
  constructor <;> rfl

/-- **C84, finding**: two cleanups at the same time, and a mutex is destroyed twice (undefined behaviour). -/
theorem double_destroy : sched (g1, [.c0, .c0]) [0, 1, 0, 1, 0, 1, 0, 1, 0, 1] = none := by rfl

/-- **C84, finding**: an initialisation that is lost: two threads initialise at the same time while one initialisation
is outstanding, and the counter grows by one only; when the two have cleaned up, the locks are gone although the first
initialisation is outstanding. -/
theorem lost_update :
    ((sched (g1, [.i0, .i0]) [0, 1, 0, 1]).bind fun x =>
      (run x.1 [.cleanup oks, .cleanup oks]).map fun y => (x.2, x.1.times, y.1.times, y.1.p.heap)) =
      some ([.done 0, .done 0], 2, 0, []) := by rfl

end Verif.Global.Conc
