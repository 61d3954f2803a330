import Verif.ThreadLife.Model

/-! # C64: a thread's block is freed exactly once, after its last use, and join returns the result -/
namespace Verif.ThreadLife
open Verif.Tot

/-- The invariant of one block; `hw`, `ho`: the lock is held by its thread, by its owner. -/
structure BInv (hw ho : Prop) (x : Blk) : Prop where
  idle : x.o = .idle → x = Blk.init
  resume : x.o = .resume → x = Blk.fresh
  cfree : x.o = .cfree → x = Blk.stillborn
  refused : ∀ r, x.o = .refused r → x = Blk.noMem ∨ x = { Blk.init with o := .refused (-1), frees := 1 }
  lw : hw ↔ x.w = .zero ∨ x.w = .test ∨ x.w = .close ∨ x.w = .free ∨ x.w = .rel
  lo : ho ↔ x.o = .did ∨ x.o = .dwait ∨ x.o = .dclose ∨ x.o = .dfree ∨ x.o = .dset ∨ x.o = .drel
  started : x.o ≠ .idle → x.o ≠ .resume → x.o ≠ .cfree → (∀ r, x.o ≠ .refused r) → x.w ≠ .none
  tid : x.o ≠ .idle → x.o ≠ .resume → x.o ≠ .cfree → (∀ r, x.o ≠ .refused r) →
    (x.tid = true ↔ x.w = .start ∨ x.w = .user ∨ (∃ v, x.w = .store v) ∨ x.w = .acq ∨ x.w = .zero)
  det : x.det = true → x.o = .drel ∨ x.o = .detached
  res0 : x.w = .start ∨ x.w = .user → x.result = none
  res1 : ∀ v, x.w = .store v → x.result = some v
  res2 : x.w ≠ .none → x.w ≠ .start → x.w ≠ .user → (∀ v, x.w ≠ .store v) → x.result = some x.code
  wdet : x.w = .close ∨ x.w = .free → x.det = true
  dset : x.o = .dset → x.tid = true
  dwait : x.o = .dwait → x.tid = false
  odead : x.o = .jclose ∨ x.o = .jread ∨ (∃ v, x.o = .jfree v) ∨ (∃ v, x.o = .joined v) ∨ x.o = .dclose ∨ x.o = .dfree ∨
    (x.o = .drel ∧ x.det = false) ∨ (x.o = .detached ∧ x.det = false) → x.w = .dead
  jval : ∀ v, x.o = .jfree v ∨ x.o = .joined v → v = x.code
  einval : x.o ≠ .einval
  live : x.o ≠ .idle → (x.live = false ↔ (∃ r, x.o = .refused r) ∨ (∃ v, x.o = .joined v) ∨ ((x.o = .drel ∨ x.o = .detached) ∧ x.det = false) ∨
    (x.det = true ∧ (x.w = .rel ∨ x.w = .ret ∨ x.w = .dead)))
  opn : x.o ≠ .idle → (x.open_ = false ↔ x.o = .cfree ∨ (∃ r, x.o = .refused r) ∨ x.o = .jread ∨ (∃ v, x.o = .jfree v) ∨ (∃ v, x.o = .joined v) ∨ x.o = .dfree ∨
    ((x.o = .drel ∨ x.o = .detached) ∧ x.det = false) ∨
    (x.det = true ∧ (x.w = .free ∨ x.w = .rel ∨ x.w = .ret ∨ x.w = .dead)))
  frees : x.frees = if x.live = true ∨ x.o = .idle ∨ x.o = .refused 22 then 0 else 1
  closes : x.closes = if x.open_ = true ∨ x.o = .idle ∨ x.o = .cfree ∨ (x.o = .refused 22 ∨ x.o = .refused (-1)) then 0 else 1
  safe : x.bad = false

def Inv (s : Sys) : Prop := ∀ i, BInv (s.own = some (.w i)) (s.own = some (.o i)) (s.b i)

theorem inv_init : Inv Sys.init := by
  intro i
  constructor <;> simp [Sys.init, Blk.init]

/-- A step that changes block `i` only. -/
theorem inv_set {s : Sys} (h : Inv s) {i : Nat} {ow : Option Who} {x : Blk}
    (hx : BInv (ow = some (.w i)) (ow = some (.o i)) x)
    (hw : ∀ j, j ≠ i → ((ow = some (.w j) ↔ s.own = some (.w j)) ∧ (ow = some (.o j) ↔ s.own = some (.o j)))) :
    Inv ({ s with own := ow }.set i x) := by
  intro j
  by_cases hj : j = i
  · subst hj; simpa [Sys.set] using hx
  · have := h j
    simp only [Sys.set, upd_other _ _ hj]
    rw [(hw j hj).1, (hw j hj).2] at *
    simpa [(hw j hj).1, (hw j hj).2] using this

set_option maxHeartbeats 4000000 in
theorem inv_runW {s s' : Sys} (h : Inv s) {i : Nat} (e : runW s i = some s') : Inv s' := by
  have hb := h i
  simp only [runW] at e
  generalize s.b i = x at e hb
  obtain ⟨w, o, tid, code, det, live, opn, frees, closes, bad, result⟩ := x
  cases w <;> simp only [Option.some.injEq, reduceCtorEq, Option.ite_none_right_eq_some] at e
  case acq =>
    obtain ⟨e0, rfl⟩ := e
    refine inv_set (ow := some (.w i)) h ?_ (by grind); obtain ⟨⟩ := hb; constructor <;> grind [Blk.init, Blk.fresh, Blk.stillborn, Blk.noMem]
  case rel =>
    subst e
    have : s.own = some (.w i) := hb.lw.2 (by simp)
    refine inv_set (ow := none) h ?_ (by grind); obtain ⟨⟩ := hb; constructor <;> grind [Blk.init, Blk.fresh, Blk.stillborn, Blk.noMem]
  all_goals
    subst e
    refine inv_set (ow := s.own) h ?_ (by simp); obtain ⟨⟩ := hb; constructor <;> grind [Blk.init, Blk.fresh, Blk.stillborn, Blk.noMem]

set_option maxHeartbeats 4000000 in
theorem inv_runO {s s' : Sys} (h : Inv s) {i : Nat} (e : runO s i = some s') : Inv s' := by
  have hb := h i
  simp only [runO] at e
  generalize s.b i = x at e hb
  obtain ⟨w, o, tid, code, det, live, opn, frees, closes, bad, result⟩ := x
  cases o <;> simp only [Option.some.injEq, reduceCtorEq, Option.ite_none_right_eq_some] at e
  case dacq =>
    obtain ⟨e0, rfl⟩ := e
    refine inv_set (ow := some (.o i)) h ?_ (by grind); obtain ⟨⟩ := hb; constructor <;> grind [Blk.init, Blk.fresh, Blk.stillborn, Blk.noMem]
  case drel =>
    subst e
    have : s.own = some (.o i) := hb.lo.2 (by simp)
    refine inv_set (ow := none) h ?_ (by grind); obtain ⟨⟩ := hb; constructor <;> grind [Blk.init, Blk.fresh, Blk.stillborn, Blk.noMem]
  case jwait =>
    obtain ⟨e0, rfl⟩ := e
    refine inv_set (ow := s.own) h ?_ (by simp); obtain ⟨⟩ := hb; constructor <;> grind [Blk.init, Blk.fresh, Blk.stillborn, Blk.noMem]
  case dwait =>
    obtain ⟨e0, rfl⟩ := e
    refine inv_set (ow := s.own) h ?_ (by simp); obtain ⟨⟩ := hb; constructor <;> grind [Blk.init, Blk.fresh, Blk.stillborn, Blk.noMem]
  all_goals
    subst e
    refine inv_set (ow := s.own) h ?_ (by simp); obtain ⟨⟩ := hb; constructor <;> grind [Blk.init, Blk.fresh, Blk.stillborn, Blk.noMem]

set_option maxHeartbeats 4000000 in
theorem inv_step {N : Nat} {s s' : Sys} (h : Inv s) (st : Step N s s') : Inv s' := by
  cases st with
  | runW i hi e => exact inv_runW h e
  | runO i hi e => exact inv_runO h e
  | ret i v hi e =>
    have hb := h i
    refine inv_set (ow := s.own) h ?_ (by simp); obtain ⟨⟩ := hb; constructor <;> grind [Blk.init, Blk.fresh, Blk.stillborn, Blk.noMem]
  | create i hi e =>
    have hb := h i
    refine inv_set (ow := s.own) h ?_ (by simp); obtain ⟨⟩ := hb; constructor <;> grind [Blk.init, Blk.fresh, Blk.stillborn, Blk.noMem]
  | noThread i hi e =>
    have hb := h i
    refine inv_set (ow := s.own) h ?_ (by simp); obtain ⟨⟩ := hb; constructor <;> grind [Blk.init, Blk.fresh, Blk.stillborn, Blk.noMem]
  | noMem i hi e =>
    have hb := h i
    refine inv_set (ow := s.own) h ?_ (by simp); obtain ⟨⟩ := hb; constructor <;> grind [Blk.init, Blk.fresh, Blk.stillborn, Blk.noMem]
  | join i hi e =>
    have hb := h i
    refine inv_set (ow := s.own) h ?_ (by simp); obtain ⟨⟩ := hb; constructor <;> grind [Blk.init, Blk.fresh, Blk.stillborn, Blk.noMem]
  | detach i hi e =>
    have hb := h i
    refine inv_set (ow := s.own) h ?_ (by simp); obtain ⟨⟩ := hb; constructor <;> grind [Blk.init, Blk.fresh, Blk.stillborn, Blk.noMem]

theorem inv_reach {N : Nat} {s : Sys} (h : Reach N s) : Inv s := by
  induction h with
  | init => exact inv_init
  | step _ st ih => exact inv_step ih st

/-! ## Safety -/

/-- **C64.** No step uses a block that is not allocated, frees one that is not allocated, or uses or
closes a handle that is closed; `free` and `CloseHandle` are called at most once. -/
theorem memory_safe {N : Nat} {s : Sys} (h : Reach N s) (i : Nat) :
    (s.b i).bad = false ∧ (s.b i).frees ≤ 1 ∧ (s.b i).closes ≤ 1 := by
  have b := inv_reach h i
  refine ⟨b.safe, ?_, ?_⟩
  · rw [b.frees]; split <;> simp
  · rw [b.closes]; split <;> simp

/-- **C64.** `pthread_join` and `pthread_detach`, called once on a thread id, do not fail. -/
theorem calls_succeed {N : Nat} {s : Sys} (h : Reach N s) (i : Nat) : (s.b i).o ≠ .einval := (inv_reach h i).einval

/-- **C64.** When `pthread_join` has returned, the thread has terminated, the value is what its start
function returned, and block and handle are released. -/
theorem join_result {N : Nat} {s : Sys} (h : Reach N s) {i v : Nat} (hj : (s.b i).o = .joined v) :
    (s.b i).w = .dead ∧ (s.b i).result = some v ∧ (s.b i).live = false ∧ (s.b i).frees = 1 ∧ (s.b i).closes = 1 := by
  have b := inv_reach h i
  obtain ⟨⟩ := b
  grind

/-- **C64.** When `pthread_create` has failed — 22 (`EINVAL`) without memory, -1 when Windows makes no thread — nothing is left
behind: no thread runs, the block (if there was one) has been freed exactly once, no handle is open or was ever closed. -/
theorem create_fails {N : Nat} {s : Sys} (h : Reach N s) {i : Nat} {r : Int} (hr : (s.b i).o = .refused r) :
    (s.b i).w = .none ∧ (s.b i).live = false ∧ (s.b i).open_ = false ∧ (s.b i).closes = 0 ∧ (s.b i).bad = false ∧
    ((r = 22 ∧ (s.b i).frees = 0) ∨ (r = -1 ∧ (s.b i).frees = 1)) := by
  rcases (inv_reach h i).refused r hr with e | e <;> rw [e] at hr <;> cases hr <;> rw [e] <;> simp [Blk.noMem, Blk.init]

/-- **C64.** After `pthread_detach` has returned, block and handle are released exactly once, by the
time the thread has terminated; they are not released while the thread may still use them. -/
theorem detach_releases {N : Nat} {s : Sys} (h : Reach N s) {i : Nat} (hd : (s.b i).o = .detached) :
    ((s.b i).w = .dead → (s.b i).live = false ∧ (s.b i).open_ = false ∧ (s.b i).frees = 1 ∧ (s.b i).closes = 1) ∧
    ((s.b i).w ≠ .rel → (s.b i).w ≠ .ret → (s.b i).w ≠ .dead → (s.b i).live = true ∧ (s.b i).frees = 0) := by
  have b := inv_reach h i
  obtain ⟨⟩ := b
  grind

/-- **C64.** As long as the owner has neither joined nor detached, the thread id stays valid. -/
theorem id_stays_valid {N : Nat} {s : Sys} (h : Reach N s) {i : Nat} (ho : (s.b i).o = .owns) :
    (s.b i).live = true ∧ (s.b i).open_ = true := by
  have b := inv_reach h i
  obtain ⟨⟩ := b
  grind

/-- **C64.** The lock is held by at most one (by construction of `own`), and by whoever is in one of
the two critical sections. -/
theorem critical_sections {N : Nat} {s : Sys} (h : Reach N s) {i j : Nat}
    (hi : (s.b i).w = .zero ∨ (s.b i).w = .test) (hj : (s.b j).o = .did ∨ (s.b j).o = .dset) : False := by
  have a := (inv_reach h i).lw.2 (by grind)
  have b := (inv_reach h j).lo.2 (by grind)
  grind

/-! ## Progress -/

/-- Steps without new calls; start functions return. -/
inductive Drain (N : Nat) : Sys → Sys → Prop where
  | runW {s s' : Sys} (i : Nat) (hi : i < N) (h : runW s i = some s') : Drain N s s'
  | runO {s s' : Sys} (i : Nat) (hi : i < N) (h : runO s i = some s') : Drain N s s'
  | ret {s : Sys} (i v : Nat) (hi : i < N) (h : (s.b i).w = .user) :
      Drain N s (s.set i { s.b i with w := .store v, result := some v })

theorem Drain.step {N : Nat} {s s' : Sys} (d : Drain N s s') : Step N s s' := by
  cases d with
  | runW i hi e => exact .runW i hi e
  | runO i hi e => exact .runO i hi e
  | ret i v hi e => exact .ret i v hi e

def rankW : WPc → Nat
  | .none => 11 | .start => 10 | .user => 9 | .store _ => 8 | .acq => 7 | .zero => 6 | .test => 5 | .close => 4
  | .free => 3 | .rel => 2 | .ret => 1 | .dead => 0

def rankO : OPc → Nat
  | .idle => 0 | .resume => 1 | .owns => 0 | .jtest => 5 | .jwait => 4 | .jclose => 3 | .jread => 2 | .jfree _ => 1
  | .joined _ => 0 | .dtest => 8 | .dacq => 7 | .did => 6 | .dwait => 5 | .dclose => 4 | .dfree => 3 | .dset => 2
  | .drel => 1 | .detached => 0 | .einval => 0 | .cfree => 1 | .refused _ => 0

def rank (x : Blk) : Nat := rankW x.w + rankO x.o

theorem rank_le (x : Blk) : rank x ≤ 19 := by
  unfold rank
  have : rankW x.w ≤ 11 := by cases x.w <;> simp [rankW]
  have : rankO x.o ≤ 8 := by cases x.o <;> simp [rankO]
  omega

theorem rank_drop {N : Nat} {s s' : Sys} (i : Inv s) (d : Drain N s s') :
    tot N rank s'.b < tot N rank s.b := by
  have key : ∀ {k : Nat} {ow : Option Who} {x : Blk}, k < N → rank x < rank (s.b k) →
      tot N rank ({ s with own := ow }.set k x).b < tot N rank s.b := by
    intro k ow x hk hx
    have := tot_upd hk rank s.b x
    simp only [Sys.set]; omega
  cases d with
  | runW k hk e =>
    simp only [ThreadLife.runW] at e
    split at e <;> rename_i hpc <;> simp only [Option.some.injEq, reduceCtorEq, Option.ite_none_right_eq_some] at e
    all_goals first
      | (obtain ⟨_, rfl⟩ := e; refine key hk ?_; simp [rank, rankW, hpc]; done)
      | (subst e; refine key hk ?_; simp [rank, rankW, hpc]; done)
      | (subst e; refine key (ow := s.own) hk ?_; simp [rank, rankW, hpc]; done)
      | (subst e; refine key (ow := s.own) hk ?_; cases (s.b k).det <;> simp [rank, rankW, hpc]; done)
  | runO k hk e =>
    have hb := i k
    simp only [ThreadLife.runO] at e
    split at e <;> rename_i hpc <;> simp only [Option.some.injEq, reduceCtorEq, Option.ite_none_right_eq_some] at e
    all_goals first
      | (obtain ⟨_, rfl⟩ := e; refine key hk ?_; simp [rank, rankO, hpc]; done)
      | (obtain ⟨_, rfl⟩ := e; refine key (ow := s.own) hk ?_; simp [rank, rankO, hpc]; done)
      | (subst e; refine key hk ?_; simp [rank, rankO, hpc]; done)
      | (subst e; refine key (ow := s.own) hk ?_; simp [rank, rankO, hpc]; done)
      | (subst e; refine key (ow := s.own) hk ?_; cases (s.b k).det <;> simp [rank, rankO, hpc]; done)
      | (subst e; refine key (ow := s.own) hk ?_; cases (s.b k).tid <;> simp [rank, rankO, hpc]; done)
      | (subst e; refine key (ow := s.own) hk ?_; simp [rank, rankO, rankW, hb.resume hpc, Blk.fresh, Blk.init]; done)
  | ret k v hk e => exact key (ow := s.own) hk (by simp [rank, rankW, e])

/-- `n` such steps. -/
inductive Drains (N : Nat) : Nat → Sys → Sys → Prop where
  | nil {s : Sys} : Drains N 0 s s
  | cons {n : Nat} {s s1 s2 : Sys} : Drain N s s1 → Drains N n s1 s2 → Drains N (n + 1) s s2

theorem Drains.reach {N n : Nat} {s s' : Sys} (d : Drains N n s s') (h : Reach N s) : Reach N s' := by
  induction d with
  | nil => exact h
  | cons d _ ih => exact ih (.step h d.step)

/-- **C64.** Without new calls at most `19 N` steps happen, in whatever order. -/
theorem drains_bounded {N n : Nat} {s s' : Sys} (h : Reach N s) (d : Drains N n s s') : n ≤ 19 * N := by
  have h1 : n + tot N rank s'.b ≤ tot N rank s.b := by
    induction d with
    | nil => simp
    | cons d _ ih => have := rank_drop (inv_reach h) d; have := ih (.step h d.step); omega
  have h2 : ∀ M, tot M rank s.b ≤ 19 * M := by
    intro M
    induction M with
    | zero => simp [tot_zero]
    | succ M ih => rw [tot_succ]; have := rank_le (s.b M); omega
  have := h2 N
  omega

theorem outside {N : Nat} {s : Sys} (h : Reach N s) {i : Nat} (hi : N ≤ i) : s.b i = Blk.init := by
  induction h with
  | init => rfl
  | step _ st ih =>
    have hset : ∀ {s : Sys} {k : Nat} {x : Blk}, k < N → (s.set k x).b i = s.b i := by
      intro s k x hk
      simp only [Sys.set]; exact upd_other _ _ (by omega)
    cases st with
    | runW k hk e =>
      simp only [runW] at e
      split at e <;> simp only [Option.some.injEq, reduceCtorEq, Option.ite_none_right_eq_some] at e
      all_goals first
        | (obtain ⟨_, rfl⟩ := e; rw [hset hk]; exact ih)
        | (subst e; rw [hset hk]; exact ih)
    | runO k hk e =>
      simp only [runO] at e
      split at e <;> simp only [Option.some.injEq, reduceCtorEq, Option.ite_none_right_eq_some] at e
      all_goals first
        | (obtain ⟨_, rfl⟩ := e; rw [hset hk]; exact ih)
        | (subst e; rw [hset hk]; exact ih)
    | ret k v hk e => rw [hset hk]; exact ih
    | create k hk e => rw [hset hk]; exact ih
    | noThread k hk e => rw [hset hk]; exact ih
    | noMem k hk e => rw [hset hk]; exact ih
    | join k hk e => rw [hset hk]; exact ih
    | detach k hk e => rw [hset hk]; exact ih

/-- **C64.** There is no deadlock: where no step is possible any more, every created thread has
terminated and every call has returned; what was joined or detached is released, exactly once. -/
theorem drained {N : Nat} {s : Sys} (h : Reach N s) (hstuck : ∀ s', ¬ Drain N s s') {i : Nat} (hi : i < N) :
    ((s.b i).o = .idle ∧ (s.b i).w = .none) ∨
    (((s.b i).o = .refused 22 ∨ (s.b i).o = .refused (-1)) ∧ (s.b i).w = .none ∧ (s.b i).live = false ∧ (s.b i).open_ = false) ∨
    ((s.b i).w = .dead ∧ (s.b i).o = .owns ∧ (s.b i).live = true) ∨
    ((s.b i).w = .dead ∧ ((∃ v, (s.b i).o = .joined v ∧ (s.b i).result = some v) ∨ (s.b i).o = .detached) ∧
      (s.b i).live = false ∧ (s.b i).frees = 1 ∧ (s.b i).closes = 1) := by
  have inv := inv_reach h
  have noW : ∀ k, k < N → runW s k = none := by
    intro k hk
    cases e : runW s k with
    | none => rfl
    | some s' => exact absurd (Drain.runW k hk e) (hstuck s')
  have noO : ∀ k, k < N → runO s k = none := by
    intro k hk
    cases e : runO s k with
    | none => rfl
    | some s' => exact absurd (Drain.runO k hk e) (hstuck s')
  have noU : ∀ k, k < N → (s.b k).w ≠ .user := fun k hk e => hstuck _ (Drain.ret k 0 hk e)
  have hown : s.own = none := by
    cases ho : s.own with
    | none => rfl
    | some who =>
      exfalso
      cases who with
      | w k =>
        have hk : k < N := by
          apply Decidable.byContradiction; intro hk
          have := outside h (i := k) (by omega)
          have := (inv k).lw.1 ho
          simp_all [Blk.init]
        have h1 := noW k hk
        have h2 := (inv k).lw.1 ho
        simp only [runW] at h1
        rcases h2 with h2 | h2 | h2 | h2 | h2 <;> simp [h2] at h1
      | o k =>
        have hk : k < N := by
          apply Decidable.byContradiction; intro hk
          have := outside h (i := k) (by omega)
          have := (inv k).lo.1 ho
          simp_all [Blk.init]
        have h1 := noO k hk
        have h2 := (inv k).lo.1 ho
        simp only [runO] at h1
        rcases h2 with h2 | h2 | h2 | h2 | h2 | h2 <;> simp [h2] at h1
        have h3 := noW k hk
        have h4 := noU k hk
        have b := inv k
        have h5 := b.dwait h2
        have h6 := b.tid (by simp [h2]) (by simp [h2]) (by simp [h2]) (by simp [h2])
        have h7 := b.lw
        have h8 := b.started (by simp [h2]) (by simp [h2]) (by simp [h2]) (by simp [h2])
        simp only [ho, runW] at h3 h7
        cases hw : (s.b k).w <;> simp_all
  have h1 := noW i hi
  have h2 := noU i hi
  have h3 := noO i hi
  have b := inv i
  have hw : (s.b i).w = .none ∨ (s.b i).w = .dead := by
    simp only [runW, hown] at h1
    cases hw : (s.b i).w <;> simp_all
  obtain ⟨⟩ := b
  simp only [runO, hown] at h3
  cases ho : (s.b i).o <;> simp [ho] at h3 <;> grind [Blk.init, Blk.noMem]

/-! ## Non-vacuity: thread 0 is joined with value 7, thread 1 detached while running, thread 2 detached
after its end -/

inductive Ev where
  | w (i : Nat) | o (i : Nat) | ret (i v : Nat) | create (i : Nat) | noThread (i : Nat) | noMem (i : Nat) | join (i : Nat) | detach (i : Nat)

def exec (N : Nat) : List Ev → Sys → Option Sys
  | [], s => some s
  | e :: es, s =>
    (match e with
      | .w i => if i < N then runW s i else none
      | .o i => if i < N then runO s i else none
      | .ret i v => if i < N ∧ (s.b i).w = WPc.user then some (s.set i { s.b i with w := .store v, result := some v }) else none
      | .create i => if i < N ∧ (s.b i).o = OPc.idle then some (s.set i Blk.fresh) else none
      | .noThread i => if i < N ∧ (s.b i).o = OPc.idle then some (s.set i Blk.stillborn) else none
      | .noMem i => if i < N ∧ (s.b i).o = OPc.idle then some (s.set i Blk.noMem) else none
      | .join i => if i < N ∧ (s.b i).o = OPc.owns then some (s.set i { s.b i with o := .jtest }) else none
      | .detach i => if i < N ∧ (s.b i).o = OPc.owns then some (s.set i { s.b i with o := .dtest }) else none).bind (exec N es)

theorem exec_reach {N : Nat} {es : List Ev} : ∀ {s s' : Sys}, Reach N s → exec N es s = some s' → Reach N s' := by
  induction es with
  | nil => intro s s' h e; simp only [exec, Option.some.injEq] at e; subst e; exact h
  | cons e es ih =>
    intro s s' h he
    simp only [exec, Option.bind_eq_some_iff] at he
    obtain ⟨s1, h1, h2⟩ := he
    refine ih ?_ h2
    cases e <;> simp only [Option.ite_none_right_eq_some, Option.some.injEq] at h1
    · exact .step h (.runW _ h1.1 h1.2)
    · exact .step h (.runO _ h1.1 h1.2)
    · obtain ⟨h1, rfl⟩ := h1; exact .step h (.ret _ _ h1.1 h1.2)
    · obtain ⟨h1, rfl⟩ := h1; exact .step h (.create _ h1.1 h1.2)
    · obtain ⟨h1, rfl⟩ := h1; exact .step h (.noThread _ h1.1 h1.2)
    · obtain ⟨h1, rfl⟩ := h1; exact .step h (.noMem _ h1.1 h1.2)
    · obtain ⟨h1, rfl⟩ := h1; exact .step h (.join _ h1.1 h1.2)
    · obtain ⟨h1, rfl⟩ := h1; exact .step h (.detach _ h1.1 h1.2)

def demo : List Ev :=
  [.create 0, .o 0, .create 1, .o 1, .create 2, .o 2, .join 0, .o 0, .w 0, .w 1, .w 2, .ret 0 7, .detach 1, .o 1, .o 1, .o 1,
   .w 0, .o 1, .o 1, .ret 1 8, .ret 2 9, .w 0, .w 0, .w 0, .w 0, .w 0, .o 0, .o 0, .o 0, .o 0,
   .w 1, .w 1, .w 1, .w 1, .w 1, .w 1, .w 1, .w 1, .w 2, .w 2, .w 2, .w 2, .w 2, .detach 2, .o 2, .o 2, .o 2, .w 2, .o 2, .o 2, .o 2, .o 2]

example : ∃ s, Reach 3 s ∧ (s.b 0).o = .joined 7 ∧ ((s.b 1).o = .detached ∧ (s.b 1).w = .dead) ∧ (s.b 2).o = .detached := by
  have h : ∃ s, exec 3 demo Sys.init = some s := by
    apply Option.isSome_iff_exists.1; decide +kernel
  obtain ⟨s, hs⟩ := h
  refine ⟨s, exec_reach .init hs, ?_, ⟨?_, ?_⟩, ?_⟩
  · have : (exec 3 demo Sys.init).map (fun s => (s.b 0).o) = some (.joined 7) := by decide +kernel
    simpa [hs] using this
  · have : (exec 3 demo Sys.init).map (fun s => (s.b 1).o) = some .detached := by decide +kernel
    simpa [hs] using this
  · have : (exec 3 demo Sys.init).map (fun s => (s.b 1).w) = some .dead := by decide +kernel
    simpa [hs] using this
  · have : (exec 3 demo Sys.init).map (fun s => (s.b 2).o) = some .detached := by decide +kernel
    simpa [hs] using this

/-- A first `pthread_create` finds no memory, a second no thread, a third works. -/
example : (exec 3 [.noMem 0, .noThread 1, .o 1, .create 2, .o 2] Sys.init).map (fun s => ((s.b 0).o, (s.b 1).o, (s.b 2).o)) =
    some (.refused 22, .refused (-1), .owns) := by decide +kernel

end Verif.ThreadLife
