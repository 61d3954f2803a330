import Verif.Portable.Spec
/-!
# C75: portable handles
-/
namespace Verif.Portable
open Spec

/-- the states a program can reach, whatever the system answers -/
inductive Reach : St → Prop
  | init : Reach .init
  | step {s s' : St} {c : Call} {e : Env} {r : Int} : Reach s → step s c e = some (s', r) → Reach s'

/-! ## The elementary changes -/

inductive Tr : St → St → Prop
  | null (s : St) (k : Kind) (v : Nat) : Tr s (s.setVar k v none)
  | initOk (s : St) (k : Kind) (v : Nat) (f : Fn) (hf : isInit k f) :
      Tr s (St.setVar ⟨s.var, (s.next, k) :: s.heap, s.next + 1, s.trace ++ [⟨s.next, f, 0⟩]⟩ k v (some s.next))
  | initFail (s : St) (k : Kind) (f : Fn) (r : Int) (hf : isInit k f) (hr : r ≠ 0) :
      Tr s ⟨s.var, ((s.next, k) :: s.heap).filter (· ≠ (s.next, k)), s.next + 1, s.trace ++ [⟨s.next, f, r⟩]⟩
  | use (s : St) (k : Kind) (p : Nat) (f : Fn) (r : Int) (hp : (p, k) ∈ s.heap) (hf : isUse k f) :
      Tr s ⟨s.var, s.heap, s.next, s.trace ++ [⟨p, f, r⟩]⟩
  | gone (s : St) (k : Kind) (p : Nat) (f : Fn) (r : Int) (v : Nat) (hp : (p, k) ∈ s.heap) (hf : isEnd k f)
      (hk : k ≠ .thread) (hv : s.var k v = some p) :
      Tr s (St.setVar ⟨s.var, s.heap.filter (· ≠ (p, k)), s.next, s.trace ++ [⟨p, f, r⟩]⟩ k v none)
  | join (s : St) (p : Nat) (f : Fn) (r : Int) (hp : (p, .thread) ∈ s.heap) (hf : isEnd .thread f) :
      Tr s ⟨s.var, s.heap.filter (· ≠ (p, .thread)), s.next, s.trace ++ [⟨p, f, r⟩]⟩

inductive Trs : St → St → Prop
  | refl (s : St) : Trs s s
  | tail {s t u : St} : Trs s t → Tr t u → Trs s u

theorem Trs.one {s t : St} (h : Tr s t) : Trs s t := .tail (.refl s) h

theorem prim_some {s s' : St} {k p f r} (h : s.prim k (some p) f r = some s') :
    (p, k) ∈ s.heap ∧ s' = ⟨s.var, s.heap, s.next, s.trace ++ [⟨p, f, r⟩]⟩ := by
  unfold St.prim at h
  simp only at h
  split at h
  · next hp => exact ⟨hp, by simpa using h.symm⟩
  · simp at h

theorem free_some {s s' : St} {k p} (h : s.free k p = some s') :
    (p, k) ∈ s.heap ∧ s' = ⟨s.var, s.heap.filter (· ≠ (p, k)), s.next, s.trace⟩ := by
  unfold St.free at h
  split at h
  · next hp => exact ⟨hp, by simpa using h.symm⟩
  · simp at h

/-- all initialisers have this shape -/
theorem init_tr {s s' : St} {k : Kind} {v : Nat} {f : Fn} {e : Env} {r : Int} (hf : isInit k f)
    (h : (match (s.setVar k v none).malloc k e.oom with
      | none => some (s.setVar k v none, (-2 : Int))
      | some (s, p) => do
        let s ← s.prim k (some p) f e.ret
        if e.ret = 0 then some (s.setVar k v (some p), e.ret)
        else
          let s ← s.free k p
          some (s, e.ret)) = some (s', r)) : Trs s s' := by
  unfold St.malloc at h
  by_cases ho : e.oom
  · simp only [ho, if_true, Option.some.injEq, Prod.mk.injEq] at h
    rw [← h.1]
    exact .one (.null s k v)
  · simp only [ho, Bool.false_eq_true, if_false, Option.bind_eq_bind, Option.bind_eq_some_iff] at h
    obtain ⟨s1, h1, h⟩ := h
    obtain ⟨_, rfl⟩ := prim_some h1
    refine .tail (.one (.null s k v)) ?_
    split at h
    · next hr =>
      simp only [Option.some.injEq, Prod.mk.injEq] at h
      rw [← h.1, hr]
      exact .initOk (s.setVar k v none) k v f hf
    · next hr =>
      simp only [Option.bind_eq_some_iff, Option.some.injEq, Prod.mk.injEq] at h
      obtain ⟨s2, h2, h3, _⟩ := h
      obtain ⟨_, rfl⟩ := free_some h2
      rw [← h3]
      exact .initFail (s.setVar k v none) k f e.ret hf hr

theorem use_tr {s s' : St} {k : Kind} {v : Nat} {f : Fn} {e : Env} {r : Int} (hf : isUse k f)
    (h : (s.prim k (s.var k v) f e.ret).map (fun s => (s, e.ret)) = some (s', r)) : Trs s s' := by
  simp only [Option.map_eq_some_iff, Prod.mk.injEq] at h
  obtain ⟨s1, h1, h2, _⟩ := h
  cases hv : s.var k v with
  | none => rw [hv] at h1; simp [St.prim] at h1
  | some p =>
    rw [hv] at h1
    obtain ⟨hp, rfl⟩ := prim_some h1
    rw [← h2]
    exact .one (.use s k p f e.ret hp hf)

theorem gone_tr {s s' : St} {k : Kind} {v p : Nat} {f : Fn} {e : Env} {r : Int} (hf : isEnd k f) (hk : k ≠ .thread)
    (hv : s.var k v = some p)
    (h : (do
      let s ← s.prim k (some p) f e.ret
      let s ← s.free k p
      some (s.setVar k v none, e.ret)) = some (s', r)) : Trs s s' := by
  simp only [Option.bind_eq_bind, Option.bind_eq_some_iff, Option.some.injEq, Prod.mk.injEq] at h
  obtain ⟨s1, h1, s2, h2, h3, _⟩ := h
  obtain ⟨hp, rfl⟩ := prim_some h1
  obtain ⟨_, rfl⟩ := free_some h2
  rw [← h3]
  exact .one (.gone s k p f e.ret v hp hf hk hv)

theorem step_trs {s s' : St} {c : Call} {e : Env} {r : Int} (h : step s c e = some (s', r)) : Trs s s' := by
  have same : ∀ {x : Int}, (some (s, x) : Res) = some (s', r) → Trs s s' := by
    intro x h
    simp only [Option.some.injEq, Prod.mk.injEq] at h
    rw [← h.1]
    exact .refl s
  cases c with
  | threadCreate hd rt n =>
    simp only [step, threadCreate] at h
    cases hd with
    | none => exact same h
    | some v =>
      simp only at h
      split at h
      · exact same h
      · unfold St.malloc at h
        by_cases ho : e.oom
        · simp only [ho, if_true, Option.some.injEq, Prod.mk.injEq] at h
          rw [← h.1]
          exact .one (.null s .thread v)
        · simp only [ho, Bool.false_eq_true, if_false, Option.bind_eq_bind, Option.bind_eq_some_iff] at h
          obtain ⟨s1, h1, h⟩ := h
          obtain ⟨_, rfl⟩ := prim_some h1
          split at h
          · next hr =>
            have base := Trs.tail (.one (.null s .thread v)) (Tr.initOk (s.setVar .thread v none) .thread v .pthread_create trivial)
            rw [hr] at h
            split at h
            · simp only [Option.bind_eq_some_iff, Option.some.injEq, Prod.mk.injEq] at h
              obtain ⟨s2, h2, h3, _⟩ := h
              obtain ⟨hp, rfl⟩ := prim_some h2
              rw [← h3]
              exact .tail base (.use _ .thread _ _ 0 hp trivial)
            · simp only [Option.some.injEq, Prod.mk.injEq] at h
              rw [← h.1]
              exact base
          · next hr =>
            simp only [Option.bind_eq_some_iff, Option.some.injEq, Prod.mk.injEq] at h
            obtain ⟨s2, h2, h3, _⟩ := h
            obtain ⟨_, rfl⟩ := free_some h2
            rw [← h3]
            exact .tail (.one (.null s .thread v)) (.initFail (s.setVar .thread v none) .thread _ e.ret trivial hr)
  | threadJoin th =>
    simp only [step, threadJoin] at h
    cases th with
    | none => exact same h
    | some p =>
      simp only [Option.bind_eq_bind, Option.bind_eq_some_iff, Option.some.injEq, Prod.mk.injEq] at h
      obtain ⟨s1, h1, s2, h2, h3, _⟩ := h
      obtain ⟨hp, rfl⟩ := prim_some h1
      obtain ⟨_, rfl⟩ := free_some h2
      rw [← h3]
      exact .one (.join s p _ e.ret hp trivial)
  | mutexInit hd =>
    simp only [step, mutexInit] at h
    cases hd with
    | none => exact same h
    | some v => exact init_tr (k := .mutex) (f := .pthread_mutex_init) trivial h
  | rwlockInit hd =>
    simp only [step, rwlockInit] at h
    cases hd with
    | none => exact same h
    | some v => exact init_tr (k := .rwlock) (f := .pthread_rwlock_init) trivial h
  | semInit hd val =>
    simp only [step, semInit] at h
    cases hd with
    | none => exact same h
    | some v => exact init_tr (k := .sem) (f := .sem_init val) trivial h
  | mutexUnlock hd =>
    simp only [step, mutexUnlock] at h
    cases hd with
    | none => exact same h
    | some v => exact use_tr (k := .mutex) (f := .pthread_mutex_unlock) trivial h
  | mutexLock hd =>
    simp only [step, mutexLock] at h
    cases hd with
    | none => exact same h
    | some v =>
      simp only at h
      split at h
      · exact same h
      · exact use_tr (k := .mutex) (f := .pthread_mutex_lock) trivial h
  | rwlockRdlock hd =>
    simp only [step, rwlockRdlock] at h
    cases hd with
    | none => exact same h
    | some v =>
      simp only at h
      split at h
      · exact same h
      · exact use_tr (k := .rwlock) (f := .pthread_rwlock_rdlock) trivial h
  | rwlockWrlock hd =>
    simp only [step, rwlockWrlock] at h
    cases hd with
    | none => exact same h
    | some v =>
      simp only at h
      split at h
      · exact same h
      · exact use_tr (k := .rwlock) (f := .pthread_rwlock_wrlock) trivial h
  | rwlockUnlock hd =>
    simp only [step, rwlockUnlock] at h
    cases hd with
    | none => exact same h
    | some v =>
      simp only at h
      split at h
      · exact same h
      · exact use_tr (k := .rwlock) (f := .pthread_rwlock_unlock) trivial h
  | semWait hd =>
    simp only [step, semWait] at h
    cases hd with
    | none => exact same h
    | some v =>
      simp only at h
      split at h
      · exact same h
      · exact use_tr (k := .sem) (f := .sem_wait) trivial h
  | semPost hd =>
    simp only [step, semPost] at h
    cases hd with
    | none => exact same h
    | some v =>
      simp only at h
      split at h
      · exact same h
      · exact use_tr (k := .sem) (f := .sem_post) trivial h
  | semGetvalue hd =>
    simp only [step, semGetvalue] at h
    cases hd with
    | none => exact same h
    | some v =>
      simp only at h
      split at h
      · exact same h
      · exact use_tr (k := .sem) (f := .sem_getvalue) trivial h
  | mutexDestroy hd =>
    simp only [step, mutexDestroy] at h
    cases hd with
    | none => exact same h
    | some v =>
      simp only at h
      split at h
      · exact same h
      · next p hv => exact gone_tr (k := .mutex) (f := .pthread_mutex_destroy) trivial (by decide) hv h
  | rwlockDestroy hd =>
    simp only [step, rwlockDestroy] at h
    cases hd with
    | none => exact same h
    | some v =>
      simp only at h
      split at h
      · exact same h
      · next p hv => exact gone_tr (k := .rwlock) (f := .pthread_rwlock_destroy) trivial (by decide) hv h
  | semDestroy hd =>
    simp only [step, semDestroy] at h
    cases hd with
    | none => exact same h
    | some v =>
      simp only at h
      split at h
      · exact same h
      · next p hv => exact gone_tr (k := .sem) (f := .sem_destroy) trivial (by decide) hv h

/-! ## The invariant -/

structure Inv (s : St) : Prop where
  fresh : ∀ p k, (p, k) ∈ s.heap → p < s.next
  kind : ∀ p k k', (p, k) ∈ s.heap → (p, k') ∈ s.heap → k = k'
  held : ∀ k v p, k ≠ .thread → s.var k v = some p → (p, k) ∈ s.heap
  own : ∀ k v v' p, k ≠ .thread → s.var k v = some p → s.var k v' = some p → v = v'
  unborn : ∀ p, s.next ≤ p → story p s.trace = []
  living : ∀ p k, (p, k) ∈ s.heap → Living k (story p s.trace)
  gone : ∀ p, p < s.next → (∀ k, (p, k) ∉ s.heap) → ∃ k, Gone k (story p s.trace)

theorem story_append (p : Nat) (t : List Ev) (e : Ev) :
    story p (t ++ [e]) = if e.obj = p then story p t ++ [(e.fn, e.ret)] else story p t := by
  unfold story
  by_cases h : e.obj = p <;> simp [List.filter_append, h]

theorem Inv.init : Inv .init := by
  constructor <;> simp [St.init, story]

theorem Tr.inv {s s' : St} (h : Tr s s') (i : Inv s) : Inv s' := by
  cases h with
  | null k v =>
    exact { i with
      held := by
        intro k' v' p hk h
        simp only [St.setVar] at h
        split at h
        · simp at h
        · exact i.held k' v' p hk h
      own := by
        intro k' v' v'' p hk h h'
        simp only [St.setVar] at h h'
        split at h
        · simp at h
        · split at h'
          · simp at h'
          · exact i.own k' v' v'' p hk h h' }
  | initOk k v f hf =>
    have nf : ∀ k', (s.next, k') ∉ s.heap := fun k' h => absurd (i.fresh _ _ h) (by omega)
    have old : ∀ k v, k ≠ .thread → s.var k v ≠ some s.next := fun k v hk h => nf _ (i.held k v _ hk h)
    constructor
    · intro p k' h
      simp only [St.setVar, List.mem_cons, Prod.mk.injEq] at h ⊢
      rcases h with h | h
      · omega
      · have := i.fresh _ _ h; omega
    · intro p k1 k2 h1 h2
      simp only [St.setVar, List.mem_cons, Prod.mk.injEq] at h1 h2
      rcases h1 with ⟨rfl, rfl⟩ | h1 <;> rcases h2 with ⟨h2, h2'⟩ | h2
      · exact h2'.symm
      · exact absurd h2 (nf _)
      · subst h2; exact absurd h1 (nf _)
      · exact i.kind _ _ _ h1 h2
    · intro k' v' p hk h
      simp only [St.setVar] at h ⊢
      split at h
      · next hc => simp only [Option.some.injEq] at h; subst h; rw [hc.1]; exact List.mem_cons_self ..
      · exact List.mem_cons_of_mem _ (i.held _ _ _ hk h)
    · intro k' v1 v2 p hk h1 h2
      simp only [St.setVar] at h1 h2
      split at h1 <;> split at h2
      · next a b => omega
      · simp only [Option.some.injEq] at h1; subst h1; exact absurd h2 (old _ _ hk)
      · simp only [Option.some.injEq] at h2; subst h2; exact absurd h1 (old _ _ hk)
      · exact i.own _ _ _ _ hk h1 h2
    · intro p hp
      simp only [St.setVar] at hp ⊢
      rw [story_append, if_neg (by simp only; omega)]
      exact i.unborn p (by omega)
    · intro p k' h
      simp only [St.setVar, List.mem_cons, Prod.mk.injEq] at h ⊢
      rw [story_append]
      rcases h with ⟨rfl, rfl⟩ | h
      · rw [if_pos rfl, i.unborn _ (Nat.le_refl _)]
        exact ⟨f, [], hf, by simp, rfl⟩
      · have := i.fresh _ _ h
        rw [if_neg (by simp only; omega)]
        exact i.living _ _ h
    · intro p hp hn
      simp only [St.setVar, List.mem_cons, Prod.mk.injEq] at hp hn ⊢
      have hne : p ≠ s.next := fun hx => hn k (.inl ⟨hx, rfl⟩)
      rw [story_append, if_neg (by simp only; omega)]
      exact i.gone p (by omega) fun k' h => hn k' (.inr h)
  | initFail k f r hf hr =>
    have nf : ∀ k', (s.next, k') ∉ s.heap := fun k' h => absurd (i.fresh _ _ h) (by omega)
    have hh : ∀ x, x ∈ ((s.next, k) :: s.heap).filter (· ≠ (s.next, k)) ↔ x ∈ s.heap := by
      intro x
      simp only [List.mem_filter, List.mem_cons, decide_eq_true_eq]
      refine ⟨fun ⟨h, hn⟩ => h.resolve_left hn, fun h => ⟨.inr h, ?_⟩⟩
      rintro rfl
      exact nf _ h
    constructor
    · intro p k' h
      have := i.fresh _ _ ((hh _).1 h)
      show p < s.next + 1
      omega
    · intro p k1 k2 h1 h2
      exact i.kind _ _ _ ((hh _).1 h1) ((hh _).1 h2)
    · intro k' v' p hk h
      exact (hh _).2 (i.held _ _ _ hk h)
    · exact i.own
    · intro p hp
      simp only at hp ⊢
      rw [story_append, if_neg (by simp only; omega)]
      exact i.unborn p (by omega)
    · intro p k' h
      have h := (hh _).1 h
      have := i.fresh _ _ h
      simp only
      rw [story_append, if_neg (by simp only; omega)]
      exact i.living _ _ h
    · intro p hp hn
      simp only at hp ⊢
      rw [story_append]
      by_cases hx : p = s.next
      · subst hx
        rw [if_pos rfl, i.unborn _ (Nat.le_refl _)]
        exact ⟨k, .inl ⟨f, r, hf, hr, rfl⟩⟩
      · rw [if_neg (by simp only; omega)]
        exact i.gone p (by omega) fun k' h => hn k' ((hh _).2 h)
  | use k p f r hp hf =>
    exact { i with
      unborn := by
        intro q hq
        simp only at hq ⊢
        have := i.fresh _ _ hp
        rw [story_append, if_neg (by simp only; omega)]
        exact i.unborn q hq
      living := by
        intro q k' h
        simp only at h ⊢
        rw [story_append]
        by_cases hx : p = q
        · subst hx
          rw [if_pos rfl]
          obtain rfl := i.kind _ _ _ hp h
          obtain ⟨g, us, h1, h2, h3⟩ := i.living _ _ h
          refine ⟨g, us ++ [(f, r)], h1, ?_, by rw [h3]; rfl⟩
          intro u hu
          simp only [List.mem_append, List.mem_singleton] at hu
          rcases hu with hu | rfl
          · exact h2 u hu
          · exact hf
        · rw [if_neg hx]; exact i.living _ _ h
      gone := by
        intro q hq hn
        simp only at hq hn ⊢
        rw [story_append, if_neg]
        · exact i.gone q hq hn
        · simp only; rintro rfl; exact hn _ hp }
  | gone k p f r v hp hf hk hv =>
    have hh : ∀ q k', (q, k') ∈ s.heap.filter (· ≠ (p, k)) ↔ (q, k') ∈ s.heap ∧ q ≠ p := by
      intro q k'
      simp only [List.mem_filter, decide_eq_true_eq, ne_eq, Prod.mk.injEq, not_and]
      refine ⟨fun ⟨h, hn⟩ => ⟨h, fun hx => ?_⟩, fun ⟨h, hn⟩ => ⟨h, fun hx => absurd hx hn⟩⟩
      subst hx
      exact hn rfl (i.kind _ _ _ h hp)
    constructor
    · intro q k' h
      exact i.fresh _ _ ((hh _ _).1 h).1
    · intro q k1 k2 h1 h2
      exact i.kind _ _ _ ((hh _ _).1 h1).1 ((hh _ _).1 h2).1
    · intro k' v' q hk' h
      simp only [St.setVar] at h ⊢
      split at h
      · simp at h
      · next hc =>
        refine (hh _ _).2 ⟨i.held _ _ _ hk' h, ?_⟩
        rintro rfl
        obtain rfl := i.kind _ _ _ hp (i.held _ _ _ hk' h)
        exact hc ⟨rfl, i.own _ _ _ _ hk h hv⟩
    · intro k' v1 v2 q hk' h1 h2
      simp only [St.setVar] at h1 h2
      split at h1
      · simp at h1
      · split at h2
        · simp at h2
        · exact i.own _ _ _ _ hk' h1 h2
    · intro q hq
      simp only [St.setVar] at hq ⊢
      have := i.fresh _ _ hp
      rw [story_append, if_neg (by simp only; omega)]
      exact i.unborn q hq
    · intro q k' h
      simp only [St.setVar] at h ⊢
      obtain ⟨h, hx⟩ := (hh _ _).1 h
      rw [story_append, if_neg (fun hy => hx hy.symm)]
      exact i.living _ _ h
    · intro q hq hn
      simp only [St.setVar] at hq hn ⊢
      rw [story_append]
      by_cases hx : p = q
      · subst hx
        rw [if_pos rfl]
        exact ⟨k, .inr ⟨_, f, r, i.living _ _ hp, hf, rfl⟩⟩
      · rw [if_neg hx]
        exact i.gone q hq fun k' h => hn k' ((hh _ _).2 ⟨h, fun hy => hx hy.symm⟩)
  | join p f r hp hf =>
    have hh : ∀ q k', (q, k') ∈ s.heap.filter (· ≠ (p, .thread)) ↔ (q, k') ∈ s.heap ∧ q ≠ p := by
      intro q k'
      simp only [List.mem_filter, decide_eq_true_eq, ne_eq, Prod.mk.injEq, not_and]
      refine ⟨fun ⟨h, hn⟩ => ⟨h, fun hx => ?_⟩, fun ⟨h, hn⟩ => ⟨h, fun hx => absurd hx hn⟩⟩
      subst hx
      exact hn rfl (i.kind _ _ _ h hp)
    constructor
    · intro q k' h
      exact i.fresh _ _ ((hh _ _).1 h).1
    · intro q k1 k2 h1 h2
      exact i.kind _ _ _ ((hh _ _).1 h1).1 ((hh _ _).1 h2).1
    · intro k' v' q hk' h
      refine (hh _ _).2 ⟨i.held _ _ _ hk' h, ?_⟩
      rintro rfl
      exact hk' (i.kind _ _ _ (i.held _ _ _ hk' h) hp)
    · exact i.own
    · intro q hq
      simp only at hq ⊢
      have := i.fresh _ _ hp
      rw [story_append, if_neg (by simp only; omega)]
      exact i.unborn q hq
    · intro q k' h
      simp only at h ⊢
      obtain ⟨h, hx⟩ := (hh _ _).1 h
      rw [story_append, if_neg (fun hy => hx hy.symm)]
      exact i.living _ _ h
    · intro q hq hn
      simp only at hq hn ⊢
      rw [story_append]
      by_cases hx : p = q
      · subst hx
        rw [if_pos rfl]
        exact ⟨.thread, .inr ⟨_, f, r, i.living _ _ hp, hf, rfl⟩⟩
      · rw [if_neg hx]
        exact i.gone q hq fun k' h => hn k' ((hh _ _).2 ⟨h, fun hy => hx hy.symm⟩)

theorem Trs.inv {s s' : St} (h : Trs s s') (i : Inv s) : Inv s' := by
  induction h with
  | refl => exact i
  | tail _ h ih => exact h.inv ih

theorem Reach.inv {s : St} (h : Reach s) : Inv s := by
  induction h with
  | init => exact .init
  | step _ hs ih => exact (step_trs hs).inv ih

/-! ## The theorems -/

/-- **C75** (life cycle): in every reachable state the story of every pthread / semaphore object ever created is:
initialised (once), then used with functions of its own kind, then destroyed or joined at most once and never touched
again; a live wrapper is one whose object lives. -/
theorem life_cycle {s : St} (h : Reach s) (p : Nat) :
    (∃ k, (p, k) ∈ s.heap ∧ Living k (story p s.trace)) ∨
    ((∀ k, (p, k) ∉ s.heap) ∧ (story p s.trace = [] ∨ ∃ k, Gone k (story p s.trace))) := by
  have i := h.inv
  by_cases hk : ∃ k, (p, k) ∈ s.heap
  · obtain ⟨k, hk⟩ := hk
    exact .inl ⟨k, hk, i.living _ _ hk⟩
  · have hk' : ∀ k, (p, k) ∉ s.heap := fun k h => hk ⟨k, h⟩
    refine .inr ⟨hk', ?_⟩
    by_cases hp : p < s.next
    · exact .inr (i.gone p hp hk')
    · exact .inl (i.unborn p (by omega))

/-- **C75** (no dangling handle): a mutex, read-write lock or semaphore handle that is not NULL refers to a living
object of its type, which no other handle variable refers to. -/
theorem handle_valid {s : St} (h : Reach s) {k : Kind} (hk : k ≠ .thread) {v p : Nat} (hv : s.var k v = some p) :
    (p, k) ∈ s.heap ∧ Living k (story p s.trace) ∧ ∀ v', s.var k v' = some p → v' = v :=
  have i := h.inv
  ⟨i.held _ _ _ hk hv, i.living _ _ (i.held _ _ _ hk hv), fun _ h' => i.own _ _ _ _ hk h' hv⟩

theorem malloc_some {s : St} {k : Kind} : s.malloc k false = some (⟨s.var, (s.next, k) :: s.heap, s.next + 1, s.trace⟩, s.next) := rfl

theorem prim_mem {s : St} {k p f r} (hp : (p, k) ∈ s.heap) :
    s.prim k (some p) f r = some ⟨s.var, s.heap, s.next, s.trace ++ [⟨p, f, r⟩]⟩ := by
  unfold St.prim; simp [hp]

theorem free_mem {s : St} {k p} (hp : (p, k) ∈ s.heap) :
    s.free k p = some ⟨s.var, s.heap.filter (· ≠ (p, k)), s.next, s.trace⟩ := by
  unfold St.free; simp [hp]

theorem free_mk {v h n t k p} (hp : (p, k) ∈ h) :
    (St.mk v h n t).free k p = some ⟨v, h.filter (· ≠ (p, k)), n, t⟩ := free_mem hp

/-- **C75** (use): a lock, unlock, wait, post or getvalue call on a handle that is not NULL calls exactly one primitive,
the right one, on the handle's object, and returns its answer; handles and wrappers are unchanged. -/
theorem use_spec {s : St} (h : Reach s) {c : Call} {k : Kind} {v : Nat} {f : Fn} (hc : uses c = some (k, some v, f))
    {p : Nat} (hv : s.var k v = some p) (e : Env) :
    step s c e = some (⟨s.var, s.heap, s.next, s.trace ++ [⟨p, f, e.ret⟩]⟩, e.ret) := by
  cases c <;> simp only [uses, Option.some.injEq, Prod.mk.injEq, reduceCtorEq] at hc <;>
    obtain ⟨rfl, rfl, rfl⟩ := hc <;>
    simp [step, mutexLock, mutexUnlock, rwlockRdlock, rwlockWrlock, rwlockUnlock, semWait, semPost, semGetvalue, hv,
      prim_mem (h.inv.held _ _ _ (by decide) hv)]

/-- **C75** (NULL): the same calls, and the destroy calls, answer -1 and do nothing when the address of the handle or
the handle is NULL (in particular after a destroy) - except `portable_mutex_unlock`, see `unlock_null`. -/
theorem null_spec (s : St) {c : Call} {k : Kind} {hd : Option Nat} {f : Fn}
    (hc : uses c = some (k, hd, f) ∨ destroys c = some (k, hd, f)) (hn : ∀ v, hd = some v → s.var k v = none)
    (hu : f ≠ .pthread_mutex_unlock ∨ hd = none) (e : Env) : step s c e = some (s, -1) := by
  cases hd with
  | none =>
    cases c <;> simp [uses, destroys] at hc <;> obtain ⟨rfl, rfl, rfl⟩ := hc <;> rfl
  | some v =>
    have hv := hn v rfl
    cases c <;> simp [uses, destroys] at hc <;> obtain ⟨rfl, rfl, rfl⟩ := hc <;>
      simp_all [step, mutexLock, rwlockRdlock, rwlockWrlock, rwlockUnlock, semWait, semPost, semGetvalue, mutexDestroy,
        rwlockDestroy, semDestroy]

/-- FINDING: `portable_mutex_unlock` on a NULL handle (never initialised, failed to initialise, or destroyed) passes a
NULL-based pointer to `pthread_mutex_unlock`. -/
theorem unlock_null (s : St) (v : Nat) (hv : s.var .mutex v = none) (e : Env) :
    step s (.mutexUnlock (some v)) e = none := by
  simp [step, mutexUnlock, hv, St.prim]

/-- **C75** (destroy): destroying a handle calls the destroy primitive once, frees the wrapper and sets the handle to
NULL, whatever the primitive answers; the answer is returned. -/
theorem destroy_spec {s : St} (h : Reach s) {c : Call} {k : Kind} {v : Nat} {f : Fn}
    (hc : destroys c = some (k, some v, f)) {p : Nat} (hv : s.var k v = some p) (e : Env) :
    ∃ s', step s c e = some (s', e.ret) ∧ s'.var k v = none ∧ (∀ k' v', (k', v') ≠ (k, v) → s'.var k' v' = s.var k' v') ∧
      (∀ q k', (q, k') ∈ s'.heap ↔ (q, k') ∈ s.heap ∧ q ≠ p) ∧ s'.trace = s.trace ++ [⟨p, f, e.ret⟩] := by
  have i := h.inv
  have key : ∀ (hk : k ≠ .thread), ∃ s', (do
      let s ← s.prim k (some p) f e.ret
      let s ← s.free k p
      some (s.setVar k v none, e.ret)) = some (s', e.ret) ∧ s'.var k v = none ∧
      (∀ k' v', (k', v') ≠ (k, v) → s'.var k' v' = s.var k' v') ∧
      (∀ q k', (q, k') ∈ s'.heap ↔ (q, k') ∈ s.heap ∧ q ≠ p) ∧ s'.trace = s.trace ++ [⟨p, f, e.ret⟩] := by
    intro hk
    have hp := i.held _ _ _ hk hv
    refine ⟨_, by rw [prim_mem hp]; simp only [Option.bind_eq_bind, Option.bind_some]; rw [free_mk hp]; rfl, ?_⟩
    refine ⟨by simp [St.setVar], ?_, ?_, rfl⟩
    · intro k' v' hne
      simp only [St.setVar]
      rw [if_neg]
      rintro ⟨rfl, rfl⟩
      exact hne rfl
    · intro q k'
      simp only [St.setVar, List.mem_filter, decide_eq_true_eq, ne_eq, Prod.mk.injEq, not_and]
      refine ⟨fun ⟨h, hn⟩ => ⟨h, fun hx => ?_⟩, fun ⟨h, hn⟩ => ⟨h, fun hx => absurd hx hn⟩⟩
      subst hx
      exact hn rfl (i.kind _ _ _ h hp)
  cases c <;> simp only [destroys, Option.some.injEq, Prod.mk.injEq, reduceCtorEq] at hc <;>
    obtain ⟨rfl, rfl, rfl⟩ := hc
  · simpa [step, mutexDestroy, hv] using key (by decide)
  · simpa [step, rwlockDestroy, hv] using key (by decide)
  · simpa [step, semDestroy, hv] using key (by decide)

/-- **C75** (initialise): an initialising call (thread creation with a start routine included) never fails otherwise
than by its answer: -1 for a NULL address, -2 when memory is short, else the primitive's answer; with answer 0 the
handle refers to a new object, otherwise the handle is NULL and no wrapper is left behind. -/
theorem init_spec {s : St} (h : Reach s) {c : Call} {k : Kind} {v : Nat} {f : Fn}
    (hc : inits c = some (k, some v, f)) (e : Env) :
    ∃ s', step s c e = some (s', if e.oom then -2 else e.ret) ∧
      (∀ k' v', (k', v') ≠ (k, v) → s'.var k' v' = s.var k' v') ∧
      (e.oom = false ∧ e.ret = 0 → ∃ p, s'.var k v = some p ∧ story p s.trace = [] ∧ (∀ k', (p, k') ∉ s.heap) ∧
        (f, 0) ∈ story p s'.trace ∧ ∀ x, x ∈ s'.heap ↔ x = (p, k) ∨ x ∈ s.heap) ∧
      (e.oom = true ∨ e.ret ≠ 0 → s'.var k v = none ∧ ∀ x, x ∈ s'.heap ↔ x ∈ s.heap) := by
  have i := h.inv
  have nf : ∀ k', (s.next, k') ∉ s.heap := fun k' h => absurd (i.fresh _ _ h) (by omega)
  have var1 : ∀ (t : St) (x : Option Nat) k' v', (k', v') ≠ (k, v) → (t.setVar k v x).var k' v' = t.var k' v' := by
    intro t x k' v' hne
    simp only [St.setVar]
    rw [if_neg]
    rintro ⟨rfl, rfl⟩
    exact hne rfl
  have hh : ∀ x, x ∈ ((s.next, k) :: s.heap).filter (· ≠ (s.next, k)) ↔ x ∈ s.heap := by
    intro x
    simp only [List.mem_filter, List.mem_cons, decide_eq_true_eq]
    refine ⟨fun ⟨h, hn⟩ => h.resolve_left hn, fun h => ⟨.inr h, ?_⟩⟩
    rintro rfl
    exact nf _ h
  obtain ⟨oom, ret⟩ := e
  have key : ∃ s', (match (s.setVar k v none).malloc k oom with
      | none => some (s.setVar k v none, (-2 : Int))
      | some (s, p) => do
        let s ← s.prim k (some p) f ret
        if ret = 0 then some (s.setVar k v (some p), ret)
        else
          let s ← s.free k p
          some (s, ret)) = some (s', if oom then -2 else ret) ∧
      (∀ k' v', (k', v') ≠ (k, v) → s'.var k' v' = s.var k' v') ∧
      (oom = false ∧ ret = 0 → ∃ p, s'.var k v = some p ∧ story p s.trace = [] ∧ (∀ k', (p, k') ∉ s.heap) ∧
        (f, 0) ∈ story p s'.trace ∧ ∀ x, x ∈ s'.heap ↔ x = (p, k) ∨ x ∈ s.heap) ∧
      (oom = true ∨ ret ≠ 0 → s'.var k v = none ∧ ∀ x, x ∈ s'.heap ↔ x ∈ s.heap) := by
    cases oom with
    | true =>
      refine ⟨s.setVar k v none, rfl, var1 s none, by simp, fun _ => ⟨by simp [St.setVar], fun x => Iff.rfl⟩⟩
    | false =>
      rw [malloc_some]
      simp only [Option.bind_eq_bind]
      rw [prim_mem (List.mem_cons_self ..)]
      simp only [Option.bind_some]
      by_cases hr : ret = 0
      · subst hr
        refine ⟨_, by rw [if_pos rfl]; rfl, ?_, ?_, by simp⟩
        · intro k' v' hne
          rw [var1 _ _ _ _ hne]
          exact var1 _ _ _ _ hne
        · intro _
          refine ⟨s.next, by simp [St.setVar], i.unborn _ (Nat.le_refl _), nf, ?_, ?_⟩
          · simp only [St.setVar]
            rw [story_append, if_pos rfl]
            simp
          · intro x
            simp [St.setVar]
      · rw [if_neg hr, free_mem (List.mem_cons_self ..)]
        refine ⟨_, rfl, ?_, by simp [hr], ?_⟩
        · intro k' v' hne
          exact var1 _ _ _ _ hne
        · intro _
          exact ⟨by simp [St.setVar], hh⟩
  cases c with
  | threadCreate hd rt n =>
    cases rt with
    | false => simp [inits] at hc
    | true =>
      simp only [inits, Option.some.injEq, Prod.mk.injEq] at hc
      obtain ⟨rfl, rfl, rfl⟩ := hc
      cases oom with
      | true =>
        refine ⟨s.setVar .thread v none, rfl, var1 s none, by simp, fun _ => ⟨by simp [St.setVar], fun x => Iff.rfl⟩⟩
      | false =>
        simp only [step, threadCreate, Bool.true_eq_false, if_false]
        rw [malloc_some]
        simp only [Option.bind_eq_bind]
        rw [prim_mem (List.mem_cons_self ..)]
        simp only [Option.bind_some]
        by_cases hr : ret = 0
        · subst hr
          rw [if_pos rfl]
          split
          · rw [prim_mem (by simp [St.setVar])]
            refine ⟨_, rfl, ?_, ?_, by simp⟩
            · intro k' v' hne
              simp only
              rw [var1 _ _ _ _ hne]
              exact var1 _ _ _ _ hne
            · intro _
              refine ⟨s.next, by simp [St.setVar], i.unborn _ (Nat.le_refl _), nf, ?_, ?_⟩
              · simp only [St.setVar]
                rw [story_append, if_pos rfl, story_append, if_pos rfl]
                simp
              · intro x
                simp [St.setVar]
          · refine ⟨_, rfl, ?_, ?_, by simp⟩
            · intro k' v' hne
              rw [var1 _ _ _ _ hne]
              exact var1 _ _ _ _ hne
            · intro _
              refine ⟨s.next, by simp [St.setVar], i.unborn _ (Nat.le_refl _), nf, ?_, ?_⟩
              · simp only [St.setVar]
                rw [story_append, if_pos rfl]
                simp
              · intro x
                simp [St.setVar]
        · rw [if_neg hr, free_mem (List.mem_cons_self ..)]
          refine ⟨_, rfl, ?_, by simp [hr], ?_⟩
          · intro k' v' hne
            exact var1 _ _ _ _ hne
          · intro _
            exact ⟨by simp [St.setVar], hh⟩
  | mutexInit hd =>
    simp only [inits, Option.some.injEq, Prod.mk.injEq] at hc
    obtain ⟨rfl, rfl, rfl⟩ := hc
    exact key
  | rwlockInit hd =>
    simp only [inits, Option.some.injEq, Prod.mk.injEq] at hc
    obtain ⟨rfl, rfl, rfl⟩ := hc
    exact key
  | semInit hd val =>
    simp only [inits, Option.some.injEq, Prod.mk.injEq] at hc
    obtain ⟨rfl, rfl, rfl⟩ := hc
    exact key
  | _ => simp [inits] at hc

/-- **C75** (thread name): a named thread gets its name, right after creation; no other thread is renamed. -/
theorem create_trace (s : St) (v : Nat) (name : Option (List Byte)) :
    (step s (.threadCreate (some v) true name) ⟨false, 0⟩).map (·.1.trace) = some (s.trace ++ ⟨s.next, .pthread_create, 0⟩ ::
      (match name with | some n => if n = [] then [] else [⟨s.next, .pthread_setname_np n, 0⟩] | none => [])) := by
  simp only [step, threadCreate, Bool.true_eq_false, if_false]
  rw [malloc_some]
  simp only [Option.bind_eq_bind]
  rw [prim_mem (List.mem_cons_self ..)]
  simp only [Option.bind_some, if_true]
  match name with
  | none => rfl
  | some [] => rfl
  | some (c :: cs) =>
    simp only
    rw [prim_mem (by simp [St.setVar])]
    simp [St.setVar]

/-- **C75** (join): joining a handle of a thread not joined yet calls `pthread_join` once and frees the wrapper. -/
theorem join_spec (s : St) (p : Nat) (hp : (p, .thread) ∈ s.heap) (e : Env) :
    step s (.threadJoin (some p)) e = some (⟨s.var, s.heap.filter (· ≠ (p, .thread)), s.next,
      s.trace ++ [⟨p, .pthread_join, e.ret⟩]⟩, e.ret) := by
  simp only [step, threadJoin]
  rw [prim_mem hp]
  simp only [Option.bind_eq_bind, Option.bind_some]
  rw [free_mk hp]
  rfl

/-- FINDING: the wrapper is freed even when `pthread_join` fails (e.g. EDEADLK, or a cyclic wait): the caller still
holds the handle, and joining again accesses freed memory. -/
theorem join_failed_dangles (s : St) (p : Nat) (hp : (p, .thread) ∈ s.heap) (e e' : Env) :
    (step s (.threadJoin (some p)) e).bind (fun x => step x.1 (.threadJoin (some p)) e') = none := by
  rw [join_spec s p hp e]
  simp [step, threadJoin, St.prim]

/-- **C75** (defined behaviour): in every reachable state every call of the interface is defined, with two exceptions:
unlocking through a NULL mutex handle, and joining a handle that is not that of a thread still to be joined. -/
theorem defined {s : St} (h : Reach s) (c : Call) (e : Env) :
    step s c e = none ↔ (∃ v, c = .mutexUnlock (some v) ∧ s.var .mutex v = none) ∨
      (∃ p, c = .threadJoin (some p) ∧ (p, .thread) ∉ s.heap) := by
  constructor
  · intro hn
    cases hu : uses c with
    | some x =>
      obtain ⟨k, hd, f⟩ := x
      cases hd with
      | none => rw [null_spec s (.inl hu) (by simp) (.inr rfl)] at hn; simp at hn
      | some v =>
        cases hv : s.var k v with
        | some p => rw [use_spec h hu hv] at hn; simp at hn
        | none =>
          by_cases hf : f = .pthread_mutex_unlock
          · subst hf
            cases c <;> simp [uses] at hu
            obtain ⟨rfl, rfl⟩ := hu
            exact .inl ⟨v, rfl, hv⟩
          · rw [null_spec s (.inl hu) (by simpa using hv) (.inl hf)] at hn; simp at hn
    | none =>
      cases hd : destroys c with
      | some x =>
        obtain ⟨k, hd', f⟩ := x
        have hf : f ≠ .pthread_mutex_unlock := by
          cases c <;> simp [destroys] at hd <;> obtain ⟨_, _, rfl⟩ := hd <;> simp
        cases hd' with
        | none => rw [null_spec s (.inr hd) (by simp) (.inr rfl)] at hn; simp at hn
        | some v =>
          cases hv : s.var k v with
          | some p => obtain ⟨s', h1, _⟩ := destroy_spec h hd hv e; rw [h1] at hn; simp at hn
          | none => rw [null_spec s (.inr hd) (by simpa using hv) (.inl hf)] at hn; simp at hn
      | none =>
        cases hi : inits c with
        | some x =>
          obtain ⟨k, hd', f⟩ := x
          cases hd' with
          | none =>
            cases c with
            | threadCreate hd rt n =>
              cases rt <;> simp [inits] at hi
              obtain ⟨_, rfl, _⟩ := hi
              simp [step, threadCreate] at hn
            | mutexInit hd => simp [inits] at hi; obtain ⟨_, rfl, _⟩ := hi; simp [step, mutexInit] at hn
            | rwlockInit hd => simp [inits] at hi; obtain ⟨_, rfl, _⟩ := hi; simp [step, rwlockInit] at hn
            | semInit hd val => simp [inits] at hi; obtain ⟨_, rfl, _⟩ := hi; simp [step, semInit] at hn
            | _ => simp [inits] at hi
          | some v => obtain ⟨s', h1, _⟩ := init_spec h hi e; rw [h1] at hn; simp at hn
        | none =>
          cases c with
          | threadCreate hdl rt n =>
            cases rt with
            | true => simp [inits] at hi
            | false => cases hdl <;> simp [step, threadCreate] at hn
          | threadJoin th =>
            cases th with
            | none => simp [step, threadJoin] at hn
            | some p =>
              by_cases hp : (p, Kind.thread) ∈ s.heap
              · rw [join_spec s p hp] at hn; simp at hn
              · exact .inr ⟨p, rfl, hp⟩
          | _ => simp [uses, destroys, inits] at hu hd hi
  · rintro (⟨v, rfl, hv⟩ | ⟨p, rfl, hp⟩)
    · exact unlock_null s v hv e
    · simp [step, threadJoin, St.prim, hp]

/-! ## No leak -/

/-- the call does not initialise a handle variable that still refers to an object -/
def Tidy (s : St) (c : Call) : Prop :=
  ∀ k v f, inits c = some (k, some v, f) → s.var k v = none

/-- reached by a program that never overwrites a handle in use -/
inductive TidyReach : St → Prop
  | init : TidyReach .init
  | step {s s' : St} {c : Call} {e : Env} {r : Int} : TidyReach s → Tidy s c → step s c e = some (s', r) → TidyReach s'

theorem TidyReach.reach {s : St} (h : TidyReach s) : Reach s := by
  induction h with
  | init => exact .init
  | step _ _ hs ih => exact .step ih hs

/-- **C75** (no leak): if no initialising call overwrites a handle in use, the live mutex, lock and semaphore wrappers
are exactly those the handle variables refer to. -/
theorem no_leak {s : St} (h : TidyReach s) {k : Kind} (hk : k ≠ .thread) (p : Nat) :
    (p, k) ∈ s.heap ↔ ∃ v, s.var k v = some p := by
  refine ⟨fun hp => ?_, fun ⟨v, hv⟩ => h.reach.inv.held _ _ _ hk hv⟩
  induction h with
  | init => simp [St.init] at hp
  | @step s s' c e r hr ht hs ih =>
    have same : s'.var = s.var → (∀ x, x ∈ s'.heap → x ∈ s.heap) → ∃ v, s'.var k v = some p := by
      intro h1 h2
      rw [h1]
      exact ih (h2 _ hp)
    cases hu : uses c with
    | some x =>
      obtain ⟨k0, hd, f⟩ := x
      by_cases hn : ∃ v q, hd = some v ∧ s.var k0 v = some q
      · obtain ⟨v, q, rfl, hv⟩ := hn
        rw [use_spec hr.reach hu hv] at hs
        simp only [Option.some.injEq, Prod.mk.injEq] at hs
        obtain ⟨rfl, _⟩ := hs
        exact same rfl fun _ h => h
      · by_cases hf : f ≠ .pthread_mutex_unlock ∨ hd = none
        · rw [null_spec s (.inl hu) (by
            intro v hv
            cases hq : s.var k0 v with
            | none => rfl
            | some q => exact absurd ⟨v, q, hv, hq⟩ hn) hf] at hs
          simp only [Option.some.injEq, Prod.mk.injEq] at hs
          obtain ⟨rfl, _⟩ := hs
          exact same rfl fun _ h => h
        · simp only [not_or, ne_eq, Decidable.not_not] at hf
          obtain ⟨rfl, hf2⟩ := hf
          cases c <;> simp [uses] at hu
          obtain ⟨rfl, rfl⟩ := hu
          rename_i hd
          cases hd with
          | none => simp at hf2
          | some v =>
            rw [unlock_null s v] at hs
            · simp at hs
            · cases hq : s.var .mutex v with
              | none => rfl
              | some q => exact absurd ⟨v, q, rfl, hq⟩ hn
    | none =>
      cases hd : destroys c with
      | some x =>
        obtain ⟨k0, hd', f⟩ := x
        have hf : f ≠ .pthread_mutex_unlock := by
          cases c <;> simp [destroys] at hd <;> obtain ⟨_, _, rfl⟩ := hd <;> simp
        by_cases hn : ∃ v q, hd' = some v ∧ s.var k0 v = some q
        · obtain ⟨v, q, rfl, hv⟩ := hn
          obtain ⟨s1, h1, h2, h3, h4, _⟩ := destroy_spec hr.reach hd hv e
          rw [h1] at hs
          simp only [Option.some.injEq, Prod.mk.injEq] at hs
          obtain ⟨rfl, _⟩ := hs
          obtain ⟨hp1, hp2⟩ := (h4 _ _).1 hp
          obtain ⟨v', hv'⟩ := ih hp1
          refine ⟨v', ?_⟩
          rw [h3 _ _ ?_]
          · exact hv'
          · intro hx
            simp only [Prod.mk.injEq] at hx
            obtain ⟨rfl, rfl⟩ := hx
            rw [hv'] at hv
            exact hp2 (Option.some.inj hv)
        · rw [null_spec s (.inr hd) (by
            intro v hv
            cases hq : s.var k0 v with
            | none => rfl
            | some q => exact absurd ⟨v, q, hv, hq⟩ hn) (.inl hf)] at hs
          simp only [Option.some.injEq, Prod.mk.injEq] at hs
          obtain ⟨rfl, _⟩ := hs
          exact same rfl fun _ h => h
      | none =>
        have stay : (some (s, (-1 : Int)) : Res) = some (s', r) → ∃ v, s'.var k v = some p := by
          intro hs
          simp only [Option.some.injEq, Prod.mk.injEq] at hs
          obtain ⟨rfl, _⟩ := hs
          exact same rfl fun _ h => h
        cases hi : inits c with
        | some x =>
          obtain ⟨k0, hd', f⟩ := x
          cases hd' with
          | none =>
            cases c with
            | threadCreate hd rt n =>
              cases rt <;> simp [inits] at hi
              obtain ⟨_, rfl, _⟩ := hi
              exact stay hs
            | mutexInit hd => simp [inits] at hi; obtain ⟨_, rfl, _⟩ := hi; exact stay hs
            | rwlockInit hd => simp [inits] at hi; obtain ⟨_, rfl, _⟩ := hi; exact stay hs
            | semInit hd val => simp [inits] at hi; obtain ⟨_, rfl, _⟩ := hi; exact stay hs
            | _ => simp [inits] at hi
          | some v =>
            have hnull := ht _ _ _ hi
            obtain ⟨s1, h1, h2, h3, h4⟩ := init_spec hr.reach hi e
            rw [h1] at hs
            simp only [Option.some.injEq, Prod.mk.injEq] at hs
            obtain ⟨rfl, _⟩ := hs
            have keep : (p, k) ∈ s.heap → ∃ v, s1.var k v = some p := by
              intro hp
              obtain ⟨v', hv'⟩ := ih hp
              refine ⟨v', ?_⟩
              rw [h2 _ _ ?_]
              · exact hv'
              · intro hx
                simp only [Prod.mk.injEq] at hx
                obtain ⟨rfl, rfl⟩ := hx
                rw [hv'] at hnull
                simp at hnull
            by_cases hg : e.oom = false ∧ e.ret = 0
            · obtain ⟨q, hq1, _, _, _, hq2⟩ := h3 hg
              rcases (hq2 _).1 hp with hx | hx
              · simp only [Prod.mk.injEq] at hx
                obtain ⟨rfl, rfl⟩ := hx
                exact ⟨v, hq1⟩
              · exact keep hx
            · have hb : e.oom = true ∨ e.ret ≠ 0 := by
                by_cases ho : e.oom = true
                · exact .inl ho
                · exact .inr fun hr => hg ⟨by simpa using ho, hr⟩
              exact keep (((h4 hb).2 _).1 hp)
        | none =>
          cases c with
          | threadCreate hdl rt n =>
            cases rt with
            | true => simp [inits] at hi
            | false => cases hdl <;> exact stay hs
          | threadJoin th =>
            cases th with
            | none => exact stay hs
            | some q =>
              by_cases hq : (q, Kind.thread) ∈ s.heap
              · rw [join_spec s q hq] at hs
                simp only [Option.some.injEq, Prod.mk.injEq] at hs
                obtain ⟨rfl, _⟩ := hs
                exact same rfl fun _ h => (List.mem_filter.1 h).1
              · simp [step, threadJoin, St.prim, hq] at hs
          | _ => simp [uses, destroys, inits] at hu hd hi

/-- FINDING: initialising a handle in use loses the old object: its wrapper stays allocated for ever, held by nobody. -/
theorem reinit_leaks :
    (run .init [(.mutexInit (some 7), ⟨false, 0⟩), (.mutexInit (some 7), ⟨false, 0⟩), (.mutexDestroy (some 7), ⟨false, 0⟩)]).map
      (fun x => (x.1.heap, x.1.var .mutex 7, x.2)) = some ([(0, .mutex)], none, [0, 0, 0]) := by
  decide +kernel

/-- a program that uses every kind of handle, with failures: nothing is left -/
example : (run .init [(.mutexInit (some 1), ⟨false, 0⟩), (.semInit (some 1) 5, ⟨true, 0⟩), (.semWait (some 1), ⟨false, 0⟩),
    (.mutexLock (some 1), ⟨false, 0⟩), (.threadCreate (some 3) true (some [65]), ⟨false, 0⟩), (.mutexUnlock (some 1), ⟨false, 0⟩),
    (.rwlockInit (some 2), ⟨false, 12⟩), (.rwlockUnlock (some 2), ⟨false, 0⟩), (.threadJoin (some 1), ⟨false, 0⟩),
    (.mutexDestroy (some 1), ⟨false, 16⟩), (.mutexDestroy (some 1), ⟨false, 0⟩)]).map (fun x => (x.1.heap, x.2)) =
    some ([], [0, -2, -1, 0, 0, 0, 12, -1, 0, 16, -1]) := by
  decide +kernel

/-- a state with a living mutex, for `use_spec`, `destroy_spec`, `handle_valid`, `no_leak` -/
example : ∃ s, TidyReach s ∧ s.var .mutex 1 = some 0 :=
  ⟨_, .step (c := .mutexInit (some 1)) (e := ⟨false, 0⟩) (r := 0) .init (by intro k v f _; rfl) rfl, rfl⟩

end Verif.Portable
