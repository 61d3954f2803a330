import Verif.Rwlock.Model
/-!
# First use of a statically initialised reader/writer lock: failing calls, store buffers

`/repo/src/thread/pthread_win_simple/pthread_win_simple.c`: the beginning of `pthread_rwlock_rdlock` / `_wrlock` (325-341,
395-411), `ptw32_rwlock_check_need_init` (308-323) and `pthread_rwlock_init` (254-280).

Any number of threads, each access to `*rwlock` a step.  `calloc` may fail, and so may the creation of the mutex and the events;
then `pthread_rwlock_destroy(&rwl)` frees the block.  The stores go into the store buffer of the thread; the fields of the object (265-267) count as one
store, `*rwlock = rwl` (274) is the other.  `ptw32_rwlock_test_init_lock` is a mutual exclusion lock (C55) whose operations are
interlocked instructions (the buffer is empty).  `use o` stands for all the call does with the object (`Verif.Rwlock.Sys`): its
first step is a wait for the handles stored in the object.  Simplification: the variable is not NULL and not destroyed in between.
-/
namespace Verif.Rwlock.Lazy

/-- Where a thread stands. -/
inductive Pc where
  /-- in no call -/
  | idle
  /-- about to compare `*rwlock` with NULL (329, 399) -/
  | nul
  /-- about to compare `*rwlock` with `PTHREAD_RWLOCK_INITIALIZER` (333, 403) -/
  | cmp
  /-- in `ptw32_mcs_lock_acquire` (312) -/
  | want
  /-- about to compare again (313) -/
  | chk
  /-- in `pthread_rwlock_init` (315, 254-280) -/
  | make
  /-- about to release, `ret` is `r` (321) -/
  | leave (r : Int)
  /-- about to load `rwl = *rwlock` (340, 410) -/
  | load
  /-- waits for the handles of the object `o` (341-342) -/
  | use (o : Nat)
  /-- the call returns `r` -/
  | ret (r : Int)
  deriving DecidableEq, Repr

/-- A store on its way to memory. -/
inductive Sto where
  /-- the fields of the object `o` (265-267) -/
  | fields (o : Nat)
  /-- `*rwlock = rwl` (274) -/
  | var (o : Nat)
  deriving DecidableEq, Repr

/-- `*rwlock` (`none`: `PTHREAD_RWLOCK_INITIALIZER`), which objects are complete in memory, how many were published, the holder of
`ptw32_rwlock_test_init_lock`, the threads, the store buffers (oldest first). -/
structure S where
  var : Option Nat
  full : Nat → Bool
  made : Nat
  own : Option Nat
  th : Nat → Pc
  buf : Nat → List Sto

def S.init : S := ⟨none, fun _ => false, 0, none, fun _ => .idle, fun _ => []⟩

def S.go (s : S) (t : Nat) (c : Pc) : S := { s with th := fun k => if k = t then c else s.th k }

def S.put (s : S) (t : Nat) (l : List Sto) : S := { s with buf := fun k => if k = t then l else s.buf k }

/-- A store reaches memory. -/
def reaches (s : S) : Sto → S
  | .fields o => { s with full := fun k => if k = o then true else s.full k }
  | .var o => { s with var := some o }

/-- `*rwlock` as a thread with this buffer sees it. -/
def look (v : Option Nat) : List Sto → Option Nat
  | [] => v
  | .fields _ :: l => look v l
  | .var o :: l => look (some o) l

/-- How `pthread_rwlock_init` fares. -/
inductive Luck where
  | ok | noMem | noHandle
  deriving DecidableEq

/-- The next step of thread `t`; `none`: it waits for handles that are not there (undefined). -/
def act (s : S) (t : Nat) (luck : Luck) : Option S :=
  let v := look s.var (s.buf t)
  match s.th t with
  | .idle => none
  | .nul => some (s.go t .cmp)
  | .cmp => some (s.go t (if v.isSome then .load else .want))
  | .want => some ({ s with own := some t }.go t .chk)
  | .chk => some (s.go t (if v.isSome then .leave 0 else .make))
  | .make => match luck with
    | .ok => some (({ s with made := s.made + 1 }.put t (s.buf t ++ [Sto.fields s.made, Sto.var s.made])).go t (.leave 0))
    | .noMem => some (s.go t (.leave 12))
    | .noHandle => some (s.go t (.leave (-2)))
  | .leave r => some ({ s with own := none }.go t (if r = 0 then .load else .ret r))
  | .load => match v with
    | some o => some (s.go t (.use o))
    | none => none
  | .use o => if s.full o = true then some (s.go t (.ret 0)) else none
  | .ret _ => some (s.go t .idle)

/-- Whether thread `t` can go on: 312 waits; interlocked instructions (312, 321) need an empty buffer. -/
def may (s : S) (t : Nat) : Prop :=
  s.th t ≠ .idle ∧ (s.th t = .want → s.own = none ∧ s.buf t = []) ∧ (∀ r, s.th t = .leave r → s.buf t = [])

def sameCell : Sto → Sto → Bool
  | .fields o, .fields o' => decide (o = o')
  | .var _, .var _ => true
  | _, _ => false

/-- Calls, steps, and stores that reach memory: the oldest of a buffer, with `pso` any without an older store to the same place. -/
inductive Step (pso : Bool) : S → Option S → Prop where
  | call {s : S} (t : Nat) (h : s.th t = .idle) : Step pso s (some (s.go t .nul))
  | run {s : S} (t : Nat) (luck : Luck) (h : may s t) : Step pso s (act s t luck)
  | drain {s : S} (t : Nat) (a b : List Sto) (x : Sto) (h : s.buf t = a ++ x :: b)
      (ho : if pso = true then ∀ y ∈ a, sameCell y x = false else a = []) :
      Step pso s (some ((reaches s x).put t (a ++ b)))

inductive Reach (pso : Bool) : S → Prop where
  | init : Reach pso S.init
  | step {s s' : S} : Reach pso s → Step pso s (some s') → Reach pso s'

/-! ## The invariant (TSO) -/

/-- In the critical section. -/
def inCs : Pc → Bool
  | .chk | .make | .leave _ => true
  | _ => false

/-- Results a call may have. -/
def good (r : Int) : Prop := r = 0 ∨ r = 12 ∨ r = -2

structure Inv (s : S) : Prop where
  own : ∀ t, s.own = some t ↔ inCs (s.th t) = true
  phase : (s.made = 0 ∧ s.var = none ∧ (∀ t, s.buf t = []) ∧
        ∀ t, s.th t ≠ .leave 0 ∧ s.th t ≠ .load ∧ (∀ o, s.th t ≠ .use o) ∧ s.th t ≠ .ret 0) ∨
    (s.made = 1 ∧ s.var = none ∧ ∃ t, s.th t = .leave 0 ∧ (∀ u, u ≠ t → s.buf u = []) ∧
        (s.buf t = [.fields 0, .var 0] ∨ (s.buf t = [.var 0] ∧ s.full 0 = true)) ∧
        ∀ u, u ≠ t → s.th u ≠ .load ∧ (∀ o, s.th u ≠ .use o) ∧ s.th u ≠ .ret 0) ∨
    (s.made = 1 ∧ s.var = some 0 ∧ s.full 0 = true ∧ (∀ t, s.buf t = []) ∧ (∀ t, s.th t ≠ .make) ∧
        ∀ t o, s.th t = .use o → o = 0)
  res : ∀ t r, s.th t = .leave r ∨ s.th t = .ret r → good r

theorem inv_init : Inv S.init := by
  refine ⟨fun t => by simp [S.init, inCs], .inl ⟨rfl, rfl, fun _ => rfl, fun t => by simp [S.init]⟩, fun t r h => by
    simp [S.init] at h⟩

theorem go_same (s : S) (t : Nat) (c : Pc) : (s.go t c).th t = c := by simp [S.go]

theorem go_other (s : S) {t u : Nat} (h : u ≠ t) (c : Pc) : (s.go t c).th u = s.th u := by simp [S.go, h]

/-- A thread moves within or outside the critical section, and to nothing that needs the object. -/
theorem inv_move {s : S} (h : Inv s) {t : Nat} {c : Pc} (hc : inCs c = inCs (s.th t)) (hr : ∀ r, c = .leave r ∨ c = .ret r → good r)
    (hp : (s.var = none → c ≠ .leave 0 ∧ c ≠ .load ∧ (∀ o, c ≠ .use o) ∧ c ≠ .ret 0))
    (hl : s.var = none → ∀ u, s.buf u ≠ [] → u ≠ t)
    (hm : s.var = some 0 → c ≠ .make ∧ ∀ o, c = .use o → o = 0) : Inv (s.go t c) := by
  refine ⟨fun u => ?_, ?_, fun u r hu => ?_⟩
  · by_cases e : u = t
    · subst e; rw [go_same, hc]; exact h.own u
    · rw [go_other s e]; exact h.own u
  · rcases h.phase with ⟨h1, h2, h3, h4⟩ | ⟨h1, h2, w, h3, h4, h5, h6⟩ | ⟨h1, h2, h3, h4, h5, h6⟩
    · refine .inl ⟨h1, h2, h3, fun u => ?_⟩
      by_cases e : u = t
      · subst e; rw [go_same]; exact hp h2
      · rw [go_other s e]; exact h4 u
    · have hw : w ≠ t := hl h2 w (by rcases h5 with e | ⟨e, _⟩ <;> simp [e])
      refine .inr (.inl ⟨h1, h2, w, by rw [go_other s hw]; exact h3, h4, h5, fun u hu => ?_⟩)
      by_cases e : u = t
      · subst e; rw [go_same]; exact (hp h2).2
      · rw [go_other s e]; exact h6 u hu
    · refine .inr (.inr ⟨h1, h2, h3, h4, fun u => ?_, fun u o hu => ?_⟩)
      · by_cases e : u = t
        · subst e; rw [go_same]; exact (hm h2).1
        · rw [go_other s e]; exact h5 u
      · by_cases e : u = t
        · subst e; rw [go_same] at hu; exact (hm h2).2 o hu
        · rw [go_other s e] at hu; exact h6 u o hu
  · by_cases e : u = t
    · subst e; rw [go_same] at hu; exact hr r hu
    · rw [go_other s e] at hu; exact h.res u r hu

/-- Only one thread is in the critical section. -/
theorem alone {s : S} (h : Inv s) {t u : Nat} (ht : inCs (s.th t) = true) (hu : inCs (s.th u) = true) : t = u := by
  have a := (h.own t).2 ht
  have b := (h.own u).2 hu
  rw [a] at b; exact Option.some.inj b

theorem own_cases {s : S} {c : Pc} {t : Nat} (o : Option Nat) (h : Inv s) (ho : o = if inCs c = true then some t else none)
    (hs : s.own = none ∨ s.own = some t) (u : Nat) :
    ({ s with own := o }.go t c).own = some u ↔ inCs (({ s with own := o }.go t c).th u) = true := by
  subst ho
  by_cases e : u = t
  · subst e; rw [go_same]; show (if inCs c = true then some u else none) = some u ↔ _
    cases inCs c <;> simp
  · rw [go_other _ e]
    have hn : inCs (s.th u) ≠ true := by
      intro hc
      have := (h.own u).2 hc
      rcases hs with a | a <;> rw [a] at this
      · cases this
      · exact e (Option.some.inj this).symm
    constructor
    · intro hx
      change (if inCs c = true then some t else none) = some u at hx
      cases hc : inCs c <;> rw [hc] at hx <;> simp at hx
      exact absurd hx.symm e
    · intro hx; exact absurd hx hn

/-- Under TSO every step is defined and keeps the invariant. -/
theorem inv_step {s : S} {o : Option S} (h : Inv s) (st : Step false s o) : ∃ s', o = some s' ∧ Inv s' := by
  cases st with
  | call t ht =>
    refine ⟨_, rfl, inv_move h (by rw [ht]; rfl) (fun r e => by rcases e with e | e <;> cases e) (fun _ => by simp) ?_ (fun _ => by
      simp)⟩
    intro hv u hu e
    subst e
    rcases h.phase with ⟨_, _, h3, _⟩ | ⟨_, _, w, h3, h4, _⟩ | ⟨_, _, _, h4, _⟩
    · exact hu (h3 u)
    · by_cases e : u = w
      · subst e; rw [h3] at ht; cases ht
      · exact hu (h4 u e)
    · exact hu (h4 u)
  | drain t a b x hb ho =>
    have ha : a = [] := by simpa using ho
    subst ha
    simp only [List.nil_append] at hb ⊢
    refine ⟨_, rfl, ?_⟩
    rcases h.phase with ⟨_, _, h3, _⟩ | ⟨h1, h2, w, h3, h4, h5, h6⟩ | ⟨_, _, _, h4, _⟩
    · rw [h3 t] at hb; cases hb
    · have e : t = w := by
        by_cases e : t = w
        · exact e
        · rw [h4 t e] at hb; cases hb
      subst e
      rcases h5 with h5 | ⟨h5, h7⟩
      · rw [h5] at hb; cases hb
        refine ⟨h.own, .inr (.inl ⟨h1, h2, t, h3, fun u hu => ?_, .inr ⟨?_, ?_⟩, h6⟩), h.res⟩
        · simp [S.put, reaches, hu, h4 u hu]
        · simp [S.put, reaches]
        · simp [S.put, reaches]
      · rw [h5] at hb; cases hb
        refine ⟨h.own, .inr (.inr ⟨h1, rfl, h7, fun u => ?_, fun u hu => ?_, fun u o hu => ?_⟩), h.res⟩
        · by_cases e : u = t
          · subst e; simp [S.put]
          · simp [S.put, reaches, e, h4 u e]
        · have hu' : s.th u = .make := hu
          have := alone h (t := t) (u := u) (by rw [h3]; rfl) (by rw [hu']; rfl)
          subst this; rw [h3] at hu'; cases hu'
        · have hu' : s.th u = .use o := hu
          by_cases e : u = t
          · subst e; rw [h3] at hu'; cases hu'
          · exact absurd hu' ((h6 u e).2.1 o)
    · rw [h4 t] at hb; cases hb
  | run t luck hm =>
    obtain ⟨hi, hw, hl⟩ := hm
    -- the buffer of a thread that moves is empty
    have hbuf : s.buf t = [] := by
      rcases h.phase with ⟨_, _, h3, _⟩ | ⟨_, _, w, h3, h4, _⟩ | ⟨_, _, _, h4, _⟩
      · exact h3 t
      · by_cases e : t = w
        · subst e; exact hl 0 h3
        · exact h4 t e
      · exact h4 t
    have hne : s.var = none → ∀ u, s.buf u ≠ [] → u ≠ t := fun _ u hu e => hu (e ▸ hbuf)
    have hlook : look s.var (s.buf t) = s.var := by rw [hbuf]; rfl
    have hv : s.var = none ∨ s.var = some 0 := by
      rcases h.phase with ⟨_, h2, _⟩ | ⟨_, h2, _⟩ | ⟨_, h2, _⟩
      · exact .inl h2
      · exact .inl h2
      · exact .inr h2
    cases hp : s.th t with
    | idle => exact absurd hp hi
    | nul =>
      refine ⟨_, by simp only [act, hp]; rfl, inv_move h (by rw [hp]; rfl) (fun r e => by rcases e with e | e <;> cases e)
        (fun _ => by simp) hne (fun _ => by simp)⟩
    | cmp =>
      rcases hv with hv | hv
      · refine ⟨s.go t .want, by simp only [act, hp, hlook]; rw [hv]; rfl, inv_move h (by rw [hp]; rfl)
          (fun r e => by rcases e with e | e <;> cases e) (fun _ => by simp) hne (fun _ => by simp)⟩
      · refine ⟨s.go t .load, by simp only [act, hp, hlook]; rw [hv]; rfl, inv_move h (by rw [hp]; rfl)
          (fun r e => by rcases e with e | e <;> cases e) (fun e => by rw [hv] at e; cases e) hne (fun _ => by simp)⟩
    | want =>
      have ho := (hw hp).1
      refine ⟨_, by simp only [act, hp]; rfl, ?_⟩
      refine ⟨fun u => own_cases (some t) h rfl (.inl ho) u, ?_, fun u r hu => ?_⟩
      · rcases h.phase with ⟨h1, h2, h3, h4⟩ | ⟨h1, h2, w, h3, h4, h5, h6⟩ | ⟨h1, h2, h3, h4, h5, h6⟩
        · refine .inl ⟨h1, h2, h3, fun u => ?_⟩
          by_cases e : u = t
          · subst e; rw [go_same]; simp
          · rw [go_other _ e]; exact h4 u
        · have := (h.own w).2 (by rw [h3]; rfl)
          rw [ho] at this; cases this
        · refine .inr (.inr ⟨h1, h2, h3, h4, fun u => ?_, fun u o hu => ?_⟩)
          · by_cases e : u = t
            · subst e; rw [go_same]; simp
            · rw [go_other _ e]; exact h5 u
          · by_cases e : u = t
            · subst e; rw [go_same] at hu; cases hu
            · rw [go_other _ e] at hu; exact h6 u o hu
      · by_cases e : u = t
        · subst e; rw [go_same] at hu; rcases hu with hu | hu <;> cases hu
        · rw [go_other _ e] at hu; exact h.res u r hu
    | chk =>
      rcases hv with hv | hv
      · refine ⟨s.go t .make, by simp only [act, hp, hlook]; rw [hv]; rfl, inv_move h (by rw [hp]; rfl)
          (fun r e => by rcases e with e | e <;> cases e) (fun _ => by simp) hne (fun e => by rw [hv] at e; cases e)⟩
      · refine ⟨s.go t (.leave 0), by simp only [act, hp, hlook]; rw [hv]; rfl, inv_move h (by rw [hp]; rfl)
          (fun r e => by rcases e with e | e <;> cases e; exact .inl rfl) (fun e => by rw [hv] at e; cases e) hne (fun _ => by simp)⟩
    | make =>
      cases luck with
      | noMem =>
        refine ⟨s.go t (.leave 12), by simp only [act, hp], inv_move h (by rw [hp]; rfl)
          (fun r e => by rcases e with e | e <;> cases e; exact .inr (.inl rfl)) (fun _ => by simp) hne (fun _ => by simp)⟩
      | noHandle =>
        refine ⟨s.go t (.leave (-2)), by simp only [act, hp], inv_move h (by rw [hp]; rfl)
          (fun r e => by rcases e with e | e <;> cases e; exact .inr (.inr rfl)) (fun _ => by simp) hne (fun _ => by simp)⟩
      | ok =>
        refine ⟨_, by simp only [act, hp]; rfl, ?_⟩
        refine ⟨fun u => ?_, ?_, fun u r hu => ?_⟩
        · by_cases e : u = t
          · subst e; rw [go_same]
            have := h.own u
            rw [hp] at this; exact this
          · rw [go_other _ e]; exact h.own u
        · rcases h.phase with ⟨h1, h2, h3, h4⟩ | ⟨h1, h2, w, h3, h4, h5, h6⟩ | ⟨h1, h2, h3, h4, h5, h6⟩
          · refine .inr (.inl ⟨by simp [S.go, S.put, h1], h2, t, go_same _ _ _, fun u hu => ?_, .inl ?_, fun u hu => ?_⟩)
            · simp [S.go, S.put, hu, h3 u]
            · simp [S.go, S.put, h3 t, h1]
            · rw [go_other _ hu]; exact (h4 u).2
          · have := alone h (t := t) (u := w) (by rw [hp]; rfl) (by rw [h3]; rfl)
            subst this; rw [h3] at hp; cases hp
          · exact absurd hp (h5 t)
        · by_cases e : u = t
          · subst e; rw [go_same] at hu; rcases hu with hu | hu <;> cases hu; exact .inl rfl
          · rw [go_other _ e] at hu; exact h.res u r hu
    | leave r =>
      have hg := h.res t r (.inl hp)
      have ho : s.own = some t := (h.own t).2 (by rw [hp]; rfl)
      have hc : inCs (if r = 0 then Pc.load else .ret r) = false := by split <;> rfl
      refine ⟨_, by simp only [act, hp]; rfl, ?_⟩
      refine ⟨fun u => own_cases none h (by rw [hc]; rfl) (.inr ho) u, ?_, fun u q hu => ?_⟩
      · rcases h.phase with ⟨h1, h2, h3, h4⟩ | ⟨h1, h2, w, h3, h4, h5, h6⟩ | ⟨h1, h2, h3, h4, h5, h6⟩
        · have hr : r ≠ 0 := fun e => (h4 t).1 (e ▸ hp)
          refine .inl ⟨h1, h2, h3, fun u => ?_⟩
          by_cases e : u = t
          · subst e; rw [go_same, if_neg hr]; simp [hr]
          · rw [go_other _ e]; exact h4 u
        · have := alone h (t := t) (u := w) (by rw [hp]; rfl) (by rw [h3]; rfl)
          subst this
          rw [hbuf] at h5; rcases h5 with e | ⟨e, _⟩ <;> cases e
        · refine .inr (.inr ⟨h1, h2, h3, h4, fun u => ?_, fun u o hu => ?_⟩)
          · by_cases e : u = t
            · subst e; rw [go_same]; split <;> simp
            · rw [go_other _ e]; exact h5 u
          · by_cases e : u = t
            · subst e; rw [go_same] at hu; split at hu <;> cases hu
            · rw [go_other _ e] at hu; exact h6 u o hu
      · by_cases e : u = t
        · subst e; rw [go_same] at hu
          split at hu
          · rcases hu with hu | hu <;> cases hu
          · rcases hu with hu | hu <;> cases hu; exact hg
        · rw [go_other _ e] at hu; exact h.res u q hu
    | load =>
      have hv : s.var = some 0 := by
        rcases h.phase with ⟨_, _, _, h4⟩ | ⟨_, _, w, h3, _, _, h6⟩ | ⟨_, h2, _⟩
        · exact absurd hp (h4 t).2.1
        · by_cases e : t = w
          · subst e; rw [h3] at hp; cases hp
          · exact absurd hp (h6 t e).1
        · exact h2
      refine ⟨s.go t (.use 0), by simp only [act, hp, hlook]; rw [hv], inv_move h (by rw [hp]; rfl)
        (fun r e => by rcases e with e | e <;> cases e) (fun e => by rw [hv] at e; cases e) hne (fun _ => by simp)⟩
    | use o =>
      have hf : s.var = some 0 ∧ s.full o = true := by
        rcases h.phase with ⟨_, _, _, h4⟩ | ⟨_, _, w, h3, _, _, h6⟩ | ⟨_, h2, h3, _, _, h6⟩
        · exact absurd hp ((h4 t).2.2.1 o)
        · by_cases e : t = w
          · subst e; rw [h3] at hp; cases hp
          · exact absurd hp ((h6 t e).2.1 o)
        · exact ⟨h2, by rw [h6 t o hp]; exact h3⟩
      refine ⟨s.go t (.ret 0), by simp [act, hp, hf.2], inv_move h (by rw [hp]; rfl)
        (fun r e => by rcases e with e | e <;> cases e; exact .inl rfl) (fun e => by rw [hf.1] at e; cases e) hne (fun _ => by simp)⟩
    | ret r =>
      refine ⟨_, by simp only [act, hp]; rfl, inv_move h (by rw [hp]; rfl) (fun r e => by rcases e with e | e <;> cases e)
        (fun _ => by simp) hne (fun _ => by simp)⟩

theorem inv_reach {s : S} (h : Reach false s) : Inv s := by
  induction h with
  | init => exact inv_init
  | step _ st ih =>
    obtain ⟨s', e, hi⟩ := inv_step ih st
    cases e; exact hi

/-! ## The property -/

/-- **First use.** On a machine with store buffers emptied in order (x86) no thread follows the initialiser or waits for handles
that are not there, whatever fails. -/
theorem lazy_defined {s : S} (h : Reach false s) : ¬ Step false s none := fun st => by
  obtain ⟨_, e, _⟩ := inv_step (inv_reach h) st
  cases e

/-- **First use.** At most one object is ever published; every thread works with that one, complete; until then the variable keeps
the initialiser. -/
theorem lazy_one_object {s : S} (h : Reach false s) : s.made ≤ 1 ∧ (s.var = none ∨ s.var = some 0 ∧ s.full 0 = true) ∧
    ∀ t o, s.th t = .use o → o = 0 ∧ s.full 0 = true := by
  rcases (inv_reach h).phase with ⟨h1, h2, _, h4⟩ | ⟨h1, h2, w, h3, _, _, h6⟩ | ⟨h1, h2, h3, _, _, h6⟩
  · exact ⟨by omega, .inl h2, fun t o ht => absurd ht ((h4 t).2.2.1 o)⟩
  · refine ⟨by omega, .inl h2, fun t o ht => ?_⟩
    by_cases e : t = w
    · subst e; rw [h3] at ht; cases ht
    · exact absurd ht ((h6 t e).2.1 o)
  · exact ⟨by omega, .inr ⟨h2, h3⟩, fun t o ht => ⟨h6 t o ht, h3⟩⟩

/-- **First use.** A call answers 0, or 12 (`ENOMEM`), or -2; 0 only when the object exists. -/
theorem lazy_results {s : S} (h : Reach false s) {t : Nat} {r : Int} (hr : s.th t = .ret r) :
    (r = 0 ∨ r = 12 ∨ r = -2) ∧ (r = 0 → s.var = some 0 ∧ s.made = 1) := by
  have hi := inv_reach h
  refine ⟨hi.res t r (.inr hr), fun e => ?_⟩
  subst e
  rcases hi.phase with ⟨_, _, _, h4⟩ | ⟨_, _, w, h3, _, _, h6⟩ | ⟨h1, h2, _⟩
  · exact absurd hr (h4 t).2.2.2
  · by_cases e : t = w
    · subst e; rw [h3] at hr; cases hr
    · exact absurd hr (h6 t e).2.2
  · exact ⟨h2, h1⟩

/-- **First use.** Nothing gets stuck: whenever a thread is in a call, some thread can go on or some store can reach memory. -/
theorem lazy_progress {s : S} (h : Reach false s) {t : Nat} (ht : s.th t ≠ .idle) :
    (∃ u, may s u) ∨ ∃ u x b, s.buf u = x :: b := by
  have hi := inv_reach h
  by_cases hb : ∃ u, s.buf u ≠ []
  · obtain ⟨u, hu⟩ := hb
    cases e : s.buf u with
    | nil => exact absurd e hu
    | cons x b => exact .inr ⟨u, x, b, e⟩
  · have hb : ∀ u, s.buf u = [] := fun u => Classical.byContradiction fun e => hb ⟨u, e⟩
    left
    cases ho : s.own with
    | none => exact ⟨t, ht, fun _ => ⟨ho, hb t⟩, fun _ _ => hb t⟩
    | some u =>
      have hc := (hi.own u).1 ho
      refine ⟨u, fun e => ?_, fun e => ?_, fun _ _ => hb u⟩
      · rw [e] at hc; cases hc
      · rw [e] at hc; cases hc

/-! ## Concrete schedules -/

inductive Ev where
  | call (t : Nat)
  | run (t : Nat) (luck : Luck)
  /-- the store at position `i` of the buffer of `t` reaches memory -/
  | drain (t i : Nat)

instance (s : S) (t : Nat) : Decidable (may s t) :=
  decidable_of_iff (s.th t ≠ .idle ∧ (s.th t = .want → s.own = none ∧ s.buf t = []) ∧
      ((match s.th t with | .leave _ => true | _ => false) = true → s.buf t = [])) (by
    unfold may
    constructor
    · rintro ⟨a, b, c⟩; exact ⟨a, b, fun r hr => c (by rw [hr])⟩
    · rintro ⟨a, b, c⟩
      refine ⟨a, b, fun hx => ?_⟩
      cases e : s.th t <;> rw [e] at hx <;> first | exact c _ e | cases hx)

def okDrain (pso : Bool) (a : List Sto) (x : Sto) : Bool := if pso then a.all (fun y => !sameCell y x) else a.isEmpty

theorem okDrain_sound {pso : Bool} {a : List Sto} {x : Sto} (h : okDrain pso a x = true) :
    if pso = true then ∀ y ∈ a, sameCell y x = false else a = [] := by
  cases pso <;> simp [okDrain] at h ⊢
  · exact h
  · exact h

/-- Carry out events; `some none`: undefined behaviour. -/
def exec (pso : Bool) : List Ev → S → Option (Option S)
  | [], s => some (some s)
  | .call t :: l, s => if s.th t = .idle then exec pso l (s.go t .nul) else none
  | .run t k :: l, s =>
    if may s t then
      match act s t k with
      | some s' => exec pso l s'
      | none => if l.isEmpty then some none else none
    else none
  | .drain t i :: l, s =>
    match (s.buf t).drop i with
    | [] => none
    | x :: b => if okDrain pso ((s.buf t).take i) x = true then exec pso l ((reaches s x).put t ((s.buf t).take i ++ b)) else none

theorem exec_sound {pso : Bool} : ∀ (l : List Ev) {s : S} {o : Option S}, Reach pso s →
    exec pso l s = some o → (∃ s', Reach pso s' ∧ (o = some s' ∨ (o = none ∧ Step pso s' none)))
  | [], s, o, hr, h => by simp [exec] at h; exact ⟨s, hr, .inl h.symm⟩
  | .call t :: l, s, o, hr, h => by
    simp only [exec] at h
    split at h
    · rename_i hi; exact exec_sound l (hr.step (.call t hi)) h
    · cases h
  | .run t k :: l, s, o, hr, h => by
    simp only [exec] at h
    split at h
    · rename_i hm
      cases ha : act s t k with
      | some s' =>
        simp only [ha] at h
        exact exec_sound l (hr.step (ha ▸ Step.run t k hm)) h
      | none =>
        simp only [ha] at h
        split at h
        · cases h; exact ⟨s, hr, .inr ⟨rfl, ha ▸ Step.run t k hm⟩⟩
        · cases h
    · cases h
  | .drain t i :: l, s, o, hr, h => by
    simp only [exec] at h
    split at h
    · cases h
    · rename_i x b hd
      split at h
      · rename_i hc
        refine exec_sound l (hr.step (.drain t ((s.buf t).take i) b x ?_ (okDrain_sound hc))) h
        rw [← hd, List.take_append_drop]
      · cases h

def reps (n : Nat) (t : Nat) : List Ev := List.replicate n (.run t .ok)

/-- Thread 0 makes the object; `*rwlock` becomes visible before its fields; thread 1 waits for handles that are not there. -/
def early : List Ev := [.call 0] ++ reps 5 0 ++ [.drain 0 1, .call 1] ++ reps 4 1

/-- **Finding.** When stores may become visible in another order than they were made (ARM64 Windows), a thread can use a lock object
whose handles are not yet there. -/
theorem pso_uses_unfinished : ∃ s, Reach true s ∧ Step true s none := by
  have h : (exec true early S.init).map Option.isNone = some true := by decide
  cases e : exec true early S.init with
  | none => rw [e] at h; cases h
  | some o =>
    rw [e] at h
    obtain ⟨s', hr, ho | ⟨_, hs⟩⟩ := exec_sound early .init e
    · subst ho; cases h
    · exact ⟨s', hr, hs⟩

/-- Thread 0 finds no memory, thread 1 no handle; thread 2 makes the object, thread 3 waits its turn and uses the same. -/
def story : List Ev :=
  [.call 0, .call 1, .call 2, .call 3] ++ reps 4 0 ++ [.run 0 .noMem, .run 0 .ok] ++ reps 4 1 ++ [.run 1 .noHandle, .run 1 .ok] ++
  reps 2 3 ++ reps 5 2 ++ [.drain 2 0, .drain 2 0] ++ reps 3 2 ++ reps 4 3

def storyOk : Option S → Bool
  | some s => decide (s.th 0 = .ret 12 ∧ s.th 1 = .ret (-2) ∧ s.th 2 = .ret 0 ∧ s.th 3 = .use 0 ∧ s.made = 1)
  | none => false

example : (exec false story S.init).map storyOk = some true := by decide

end Verif.Rwlock.Lazy
