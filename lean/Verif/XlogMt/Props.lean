import Verif.XlogMt.Step
import Verif.XlogMt.Redirect

/-! # C79: xlog's configuration with threads -/
namespace Verif.XlogMt
open Spec

theorem Run.append {S T U : St} {a b : List Obs} (h : Run S a T) (k : Run T b U) : Run S (a ++ b) U := by
  induction h with
  | nil => exact k
  | cons h _ ih => exact .cons h (ih k)

/-- Only `xlog_global_init` and `xlog_global_cleanup` create and destroy the mutex. -/
theorem step_mutex {s s' : Sys} {e : Ev} {obs : List Obs} (hi : e.inner = true) (he : step s e = some (s', obs)) :
    s'.mutex = none ↔ s.mutex = none := by
  cases e with
  | globalInit => cases hi
  | globalCleanup => cases hi
  | call t c => simp only [step] at he; split at he <;> cases he; rfl
  | fail t => simp only [step] at he; split at he <;> cases he; rfl
  | nest t c => simp only [step] at he; split at he <;> cases he; split <;> rfl
  | cbRet t => simp only [step] at he; split at he <;> cases he; rfl
  | act t =>
    simp only [step, act] at he
    split at he
    · cases he
    · cases he
    · cases he
    · cases he; split <;> rfl
    · cases he; split <;> rfl
    · cases he; split <;> rfl
    · cases he; rfl
    · split at he <;> cases he <;> simp [Sys.go]
    · split at he <;> cases he <;> simp_all [Sys.go]
    · split at he <;> cases he <;> simp [Sys.go]
    · simp only [exec, Option.some.injEq] at he
      split at he
      · cases he; rfl
      · cases he; rfl
      · split at he <;> cases he <;> rfl
      · cases he; rfl
    · split at he
      · split at he <;> cases he <;> simp_all [Sys.go]
      · cases he; simp [Sys.go]
    · cases he; rfl

theorem run_inv {t0 : Nat} : ∀ (es : List Ev) {s s' : Sys} {S : St} {obs : List Obs}, Inv s S t0 → (∀ e ∈ es, e.inner = true) →
    (s.mutex = none → ∀ e ∈ es, e.thread = t0) → run s es = some (s', obs) → ∃ S', Run S obs S' ∧ Inv s' S' t0
  | [], s, s', S, obs, h, _, _, hr => by
    simp only [run, Option.some.injEq, Prod.mk.injEq] at hr
    obtain ⟨rfl, rfl⟩ := hr
    exact ⟨S, .nil, h⟩
  | e :: es, s, s', S, obs, h, hi, ht, hr => by
    simp only [run] at hr
    cases he : step s e with
    | none => rw [he] at hr; cases hr
    | some r =>
      obtain ⟨s1, o1⟩ := r
      rw [he] at hr
      simp only [Option.bind_some] at hr
      cases hk : run s1 es with
      | none => rw [hk] at hr; cases hr
      | some r2 =>
        obtain ⟨s2, o2⟩ := r2
        rw [hk] at hr
        simp only [Option.map_some, Option.some.injEq, Prod.mk.injEq] at hr
        obtain ⟨rfl, rfl⟩ := hr
        have hin := hi e (by simp)
        obtain ⟨S1, a, b⟩ := step_inv h hin (fun hm => ht hm e (by simp)) he
        obtain ⟨S2, c, d⟩ := run_inv es b (fun e he => hi e (by simp [he]))
          (fun hm e he' => ht ((step_mutex hin he).1 hm) e (by simp [he'])) hk
        exact ⟨S2, Run.append a c, d⟩

/-- **C79** (several threads): if `xlog_global_init` is called first and neither it nor `xlog_global_cleanup` is called while xlog is
in use, everything any number of threads observe is correct in the sense of the specification. -/
theorem threads_conform {es : List Ev} (hi : ∀ e ∈ es, e.inner = true) {s : Sys} {obs : List Obs}
    (h : run Sys.init (.globalInit :: es) = some (s, obs)) :
    ∃ obs', obs = .globalInit 0 :: obs' ∧ ∃ S, Run St.init obs' S := by
  simp only [run, step, Sys.init, Option.bind_some, Option.map_eq_some_iff, Prod.exists, Prod.mk.injEq] at h
  obtain ⟨s1, o1, h, rfl, rfl⟩ := h
  have inv : Inv ⟨Cfg.init, some none, fun _ => .idle⟩ St.init 0 :=
    ⟨fun _ => trivial, ⟨rfl, rfl, rfl, rfl⟩, fun _ => ⟨rfl, rfl, rfl, rfl, rfl, rfl, rfl, rfl, rfl, rfl, rfl, rfl, rfl, rfl⟩,
      .inl ⟨none, rfl, fun t => ⟨fun h => h.elim, fun h => by cases h⟩⟩⟩
  obtain ⟨S, a, _⟩ := run_inv es inv hi (fun hm => by cases hm) h
  exact ⟨o1, rfl, S, a⟩

/-- **C79** (one thread): a program that logs from one thread only needs no initialisation. -/
theorem one_thread_conforms {es : List Ev} (t : Nat) (hi : ∀ e ∈ es, e.inner = true ∧ e.thread = t) {s : Sys} {obs : List Obs}
    (h : run Sys.init es = some (s, obs)) : ∃ S, Run St.init obs S := by
  obtain ⟨S, a, _⟩ := run_inv es (init_inv t) (fun e he => (hi e he).1) (fun _ e he => (hi e he).2) h
  exact ⟨S, a⟩

/-! ## What the specification says -/

/-- The calls begun, from the trace. -/
def begun (c : Call) (tr : List Obs) : Prop := ∃ t, Obs.call t c ∈ tr

/-- A callback is configured only by calls that were begun. -/
structure CbInv (tr : List Obs) (S : St) : Prop where
  conf : S.conf.cb = (0, 0) ∨ begun (.callback S.conf.cb.1 S.conf.cb.2) tr
  opened : ∀ t c seen, S.th t = .opened c seen → begun c tr
  setting : ∀ t c b, S.th t = .setting c b → begun c tr

theorem begun_mono {c : Call} {a : List Obs} (b : List Obs) (h : begun c a) : begun c (a ++ b) := by
  obtain ⟨t, h⟩ := h
  exact ⟨t, by simp [h]⟩

theorem CbInv.mono {a : List Obs} {S : St} (h : CbInv a S) (b : List Obs) : CbInv (a ++ b) S :=
  ⟨h.conf.imp id (begun_mono b), fun t c s e => begun_mono b (h.opened t c s e), fun t c s e => begun_mono b (h.setting t c s e)⟩

theorem CbInv.set {a : List Obs} {S : St} (h : CbInv a S) {t : Nat} {x : TS} (h1 : ∀ c s, x = .opened c s → begun c a)
    (h2 : ∀ c s, x = .setting c s → begun c a) : CbInv a (S.set t x) := by
  refine ⟨h.conf, fun u c s e => ?_, fun u c s e => ?_⟩
  · by_cases k : u = t
    · simp only [St.set, k, if_true] at e; exact h1 c s e
    · simp only [St.set, k, if_false] at e; exact h.opened u c s e
  · by_cases k : u = t
    · simp only [St.set, k, if_true] at e; exact h2 c s e
    · simp only [St.set, k, if_false] at e; exact h.setting u c s e

theorem accept_cb {n m : Conf} {c : Call} (h : accept n c = some m) : m.cb = n.cb ∨ c = .callback m.cb.1 m.cb.2 := by
  cases c with
  | callback f d => simp [accept] at h; subst h; exact .inr rfl
  | defaultTag t => cases t <;> simp [accept] at h; subst h; exact .inl rfl
  | autoLevelUp => simp [accept] at h; subst h; exact .inl rfl
  | timezone | target | minLevel | format | flushMode => simp [accept] at h; obtain ⟨_, rfl⟩ := h; exact .inl rfl
  | _ => simp [accept] at h

theorem step_cb {tr : List Obs} {S T : St} {o : Obs} (h : CbInv tr S) (hs : Step S o T) : CbInv (tr ++ [o]) T := by
  have hm := h.mono [o]
  cases hs with
  | @call t c h1 =>
    exact hm.set (fun d s e => by cases e; exact ⟨t, by simp⟩) (fun d s e => by cases e)
  | enterSet h1 h2 h3 => exact hm.set (fun d s e => by cases e) (fun d s e => by cases e; exact hm.opened _ _ _ h2)
  | @commit t c n h1 h2 =>
    refine ⟨?_, fun u d s e => ?_, fun u d s e => ?_⟩
    · rcases accept_cb h2 with k | k
      · simp only [k]; exact hm.conf
      · exact .inr (k ▸ hm.setting _ _ _ h1)
    · by_cases k : u = t
      · simp [k] at e
      · simp only [k, if_false] at e
        revert e
        cases hu : S.th u <;> simp [TS.notice]
        rintro rfl _
        exact hm.opened u _ _ hu
    · by_cases k : u = t
      · simp only [k, if_true] at e; cases e; exact hm.setting _ _ _ h1
      · simp only [k, if_false] at e
        revert e
        cases hu : S.th u <;> simp [TS.notice]
        rintro rfl _
        exact hm.setting u _ _ hu
  | leaveSet h1 => exact hm.set (fun d s e => by cases e) (fun d s e => by cases e)
  | enterPrint => exact hm.set (fun d s e => by cases e) (fun d s e => by cases e)
  | out => exact hm.set (fun d s e => by cases e) (fun d s e => by cases e)
  | failed => exact hm.set (fun d s e => by cases e) (fun d s e => by cases e)
  | leavePrint => exact hm.set (fun d s e => by cases e) (fun d s e => by cases e)
  | retLeft => exact hm.set (fun d s e => by cases e) (fun d s e => by cases e)
  | retRefused => exact hm.set (fun d s e => by cases e) (fun d s e => by cases e)
  | retFiltered => exact hm.set (fun d s e => by cases e) (fun d s e => by cases e)
  | retValue => exact hm.set (fun d s e => by cases e) (fun d s e => by cases e)
  | nested => exact hm

theorem run_cb {S T : St} {os : List Obs} (hr : Run S os T) : ∀ {tr : List Obs}, CbInv tr S →
    ∀ {t fn d i : Nat} {l : Look}, Obs.out t (.callback fn d i l) ∈ os → begun (.callback fn d) (tr ++ os) := by
  induction hr with
  | nil => intro tr h t fn d i l hm; cases hm
  | @cons S T U o os hs hr ih =>
    intro tr h t fn d i l hm
    rcases List.mem_cons.1 hm with e | hm
    · subst e
      cases hs with
      | @out _ level id tag outs _ h1 h2 =>
        have : Out.callback fn d i l ∈ expected S.conf level tag id := h2.subset (by simp)
        have k : S.conf.cb.1 ≠ 0 ∧ S.conf.cb.1 = fn ∧ S.conf.cb.2 = d := by
          simp only [expected, List.mem_append] at this
          rcases this with this | this
          · split at this
            · simp only [List.mem_cons, reduceCtorEq, false_or] at this
              split at this <;> simp at this
            · simp at this
          · split at this
            · rename_i hc
              simp at this
              exact ⟨hc.2, this.1.symm, this.2.1.symm⟩
            · simp at this
        obtain ⟨k0, rfl, rfl⟩ := k
        rcases h.conf with hc | hc
        · exact absurd (by rw [hc]) k0
        · exact begun_mono _ hc
    · have := ih (step_cb h hs) hm
      simpa using this

/-- **C79** (callback): the function and the data a callback runs with were given together in one call of
`xlog_set_user_callback`. -/
theorem callback_pair {os : List Obs} {S : St} (h : Run St.init os S) {t fn d i : Nat} {l : Look}
    (hm : Obs.out t (.callback fn d i l) ∈ os) : ∃ u, Obs.call u (.callback fn d) ∈ os := by
  have := run_cb h (tr := []) ⟨.inl rfl, (by intro _ _ _ e; cases e), (by intro _ _ _ e; cases e)⟩ hm
  simpa [begun] using this

/-- Logging is off and nobody is about to switch it on. -/
structure OffInv (S : St) : Prop where
  off : S.conf.minLevel = 0
  seen : ∀ t c l, S.th t = .opened c l → (∀ n ∈ l, n.minLevel = 0) ∧ ∀ k, c ≠ .minLevel k
  setting : ∀ t c b, S.th t = .setting c b → ∀ k, c ≠ .minLevel k
  printing : ∀ t l g i o f, S.th t ≠ .printing l g i o f

theorem accept_min {n m : Conf} {c : Call} (h : accept n c = some m) (hc : ∀ k, c ≠ .minLevel k) : m.minLevel = n.minLevel := by
  cases c with
  | minLevel k => exact absurd rfl (hc k)
  | callback f d => simp [accept] at h; subst h; rfl
  | defaultTag t => cases t <;> simp [accept] at h; subst h; rfl
  | autoLevelUp => simp [accept] at h; subst h; rfl
  | timezone | target | format | flushMode => simp [accept] at h; obtain ⟨_, rfl⟩ := h; rfl
  | _ => simp [accept] at h

theorem OffInv.set {S : St} (h : OffInv S) {t : Nat} {x : TS} (h1 : ∀ c l, x = .opened c l → (∀ n ∈ l, n.minLevel = 0) ∧ ∀ k, c ≠ .minLevel k)
    (h2 : ∀ c b, x = .setting c b → ∀ k, c ≠ .minLevel k) (h3 : ∀ l g i o f, x ≠ .printing l g i o f) : OffInv (S.set t x) := by
  refine ⟨h.off, fun u c s e => ?_, fun u c s e => ?_, fun u l g i o f e => ?_⟩
  · by_cases k : u = t
    · simp only [St.set, k, if_true] at e; exact h1 c s e
    · simp only [St.set, k, if_false] at e; exact h.seen u c s e
  · by_cases k : u = t
    · simp only [St.set, k, if_true] at e; exact h2 c s e
    · simp only [St.set, k, if_false] at e; exact h.setting u c s e
  · by_cases k : u = t
    · simp only [St.set, k, if_true] at e; exact h3 _ _ _ _ _ e
    · simp only [St.set, k, if_false] at e; exact h.printing u _ _ _ _ _ e

theorem step_off {S T : St} {o : Obs} (h : OffInv S) (hs : Step S o T) (hc : ∀ t k, o ≠ .call t (.minLevel k)) :
    OffInv T ∧ ∀ t x, o ≠ .out t x := by
  have no := h.printing
  cases hs with
  | @call t c h1 =>
    refine ⟨h.set (fun d s e => ?_) (fun d s e => by cases e) (fun _ _ _ _ _ e => by cases e), by simp⟩
    cases e
    exact ⟨by simp [h.off], fun k e => hc t k (by rw [e])⟩
  | enterSet h1 h2 h3 =>
    exact ⟨h.set (fun d s e => by cases e) (fun d s e => by cases e; exact (h.seen _ _ _ h2).2) (fun _ _ _ _ _ e => by cases e), by simp⟩
  | @commit t c n h1 h2 =>
    have hn : n.minLevel = 0 := by rw [accept_min h2 (h.setting _ _ _ h1)]; exact h.off
    refine ⟨⟨hn, fun u d s e => ?_, fun u d s e => ?_, fun u l g i o f e => ?_⟩, by simp⟩
    · by_cases k : u = t
      · simp [k] at e
      · simp only [k, if_false] at e
        revert e
        cases hu : S.th u <;> simp [TS.notice]
        rintro rfl rfl
        have := h.seen u _ _ hu
        exact ⟨fun m hm => by
          rcases List.mem_cons.1 hm with rfl | hm
          · exact hn
          · exact this.1 m hm, this.2⟩
    · by_cases k : u = t
      · simp only [k, if_true] at e; cases e; exact h.setting _ _ _ h1
      · simp only [k, if_false] at e
        revert e
        cases hu : S.th u <;> simp [TS.notice]
        rintro rfl _
        exact h.setting u _ _ hu
    · by_cases k : u = t
      · simp [k] at e
      · simp only [k, if_false] at e
        revert e
        cases hu : S.th u <;> simp [TS.notice]
        exact absurd hu (h.printing _ _ _ _ _ _)
  | leaveSet h1 => exact ⟨h.set (fun d s e => by cases e) (fun d s e => by cases e) (fun _ _ _ _ _ e => by cases e), by simp⟩
  | enterPrint _ h2 _ h3 =>
    obtain ⟨c, hm, k⟩ := h3
    exact absurd ((h.seen _ _ _ h2).1 c hm) k
  | out h1 => exact absurd h1 (no _ _ _ _ _ _)
  | failed h1 => exact absurd h1 (no _ _ _ _ _ _)
  | leavePrint h1 => exact absurd h1 (no _ _ _ _ _ _)
  | retLeft => exact ⟨h.set (fun d s e => by cases e) (fun d s e => by cases e) (fun _ _ _ _ _ e => by cases e), by simp⟩
  | retRefused => exact ⟨h.set (fun d s e => by cases e) (fun d s e => by cases e) (fun _ _ _ _ _ e => by cases e), by simp⟩
  | retFiltered => exact ⟨h.set (fun d s e => by cases e) (fun d s e => by cases e) (fun _ _ _ _ _ e => by cases e), by simp⟩
  | retValue => exact ⟨h.set (fun d s e => by cases e) (fun d s e => by cases e) (fun _ _ _ _ _ e => by cases e), by simp⟩
  | nested h1 => exact absurd h1 (no _ _ _ _ _ _)

/-- **C79** (off): once logging is off and no call is under way, nothing is put out until `xlog_set_min_level` is called. -/
theorem silent_when_off {S T : St} {os : List Obs} (hr : Run S os T) (h0 : S.conf.minLevel = 0) (hidle : ∀ t, S.th t = .idle)
    (hc : ∀ t k, Obs.call t (.minLevel k) ∉ os) : ∀ t x, Obs.out t x ∉ os := by
  have inv : OffInv S := ⟨h0, fun t c l e => by simp [hidle t] at e, fun t c b e => by simp [hidle t] at e, fun t l g i o f e => by simp [hidle t] at e⟩
  clear hidle h0
  induction hr with
  | nil => intro t x h; cases h
  | cons hs hr ih =>
    intro t x hm
    obtain ⟨k1, k2⟩ := step_off inv hs (fun t k e => hc t k (by simp [e]))
    rcases List.mem_cons.1 hm with e | hm
    · exact k2 t x e.symm
    · exact ih (fun t k hm => hc t k (by simp [hm])) k1 t x hm

/-! ## Initialisation -/

/-- What `xlog_global_init` and `xlog_global_cleanup` must answer: 0 if they did something, 1 if there was nothing to do. -/
def Lifecycle : Bool → List Obs → Prop
  | _, [] => True
  | up, .globalInit v :: os => v = (if up then 1 else 0) ∧ Lifecycle true os
  | up, .globalCleanup v :: os => v = (if up then 0 else 1) ∧ Lifecycle false os
  | up, _ :: os => Lifecycle up os

theorem lifecycle_skip {up : Bool} {a b : List Obs} (h : ∀ o ∈ a, (∀ v, o ≠ .globalInit v) ∧ ∀ v, o ≠ .globalCleanup v) :
    Lifecycle up (a ++ b) ↔ Lifecycle up b := by
  induction a with
  | nil => rfl
  | cons o a ih =>
    have := h o (by simp)
    rw [List.cons_append]
    have ih := ih fun o ho => h o (by simp [ho])
    cases o with
    | globalInit v => exact absurd rfl (this.1 v)
    | globalCleanup v => exact absurd rfl (this.2 v)
    | _ => exact ih

theorem step_obs {s s' : Sys} {e : Ev} {obs : List Obs} (hi : e.inner = true) (he : step s e = some (s', obs)) :
    ∀ o ∈ obs, (∀ v, o ≠ .globalInit v) ∧ ∀ v, o ≠ .globalCleanup v := by
  cases e with
  | globalInit => cases hi
  | globalCleanup => cases hi
  | call t c => simp only [step] at he; split at he <;> cases he; simp
  | fail t => simp only [step] at he; split at he <;> cases he; simp
  | nest t c => simp only [step] at he; split at he <;> cases he; simp
  | cbRet t => simp only [step] at he; split at he <;> cases he; simp
  | act t =>
    simp only [step, act] at he
    split at he
    · cases he
    · cases he
    · cases he
    · cases he; simp
    · cases he; simp
    · cases he; simp
    · cases he; simp
    · split at he <;> cases he <;> simp
    · split at he <;> cases he <;> simp
    · split at he <;> cases he <;> simp
    · simp only [exec, Option.some.injEq] at he
      split at he
      · cases he; simp
      · cases he; split <;> simp
      · split at he <;> cases he <;> simp
      · cases he; simp
    · split at he
      · split at he <;> cases he <;> simp
      · cases he; simp
    · cases he; simp

theorem lifecycle_run : ∀ (es : List Ev) {s s' : Sys} {obs : List Obs}, run s es = some (s', obs) → Lifecycle s.mutex.isSome obs
  | [], s, s', obs, hr => by
    simp only [run, Option.some.injEq, Prod.mk.injEq] at hr
    obtain ⟨rfl, rfl⟩ := hr
    trivial
  | e :: es, s, s', obs, hr => by
    simp only [run] at hr
    cases he : step s e with
    | none => rw [he] at hr; cases hr
    | some r =>
      obtain ⟨s1, o1⟩ := r
      rw [he] at hr
      simp only [Option.bind_some] at hr
      cases hk : run s1 es with
      | none => rw [hk] at hr; cases hr
      | some r2 =>
        obtain ⟨s2, o2⟩ := r2
        rw [hk] at hr
        simp only [Option.map_some, Option.some.injEq, Prod.mk.injEq] at hr
        obtain ⟨rfl, rfl⟩ := hr
        have ih := lifecycle_run es hk
        by_cases hin : e.inner = true
        · rw [lifecycle_skip (step_obs hin he)]
          have := step_mutex hin he
          have e' : s1.mutex.isSome = s.mutex.isSome := by
            cases h1 : s1.mutex <;> cases h2 : s.mutex <;> simp_all
          rwa [e'] at ih
        · cases e with
          | globalInit =>
            simp only [step] at he
            split at he <;> cases he
            · rename_i o ho; rw [ho] at ih ⊢; exact ⟨rfl, ih⟩
            · rename_i ho; rw [ho]; exact ⟨rfl, ih⟩
          | globalCleanup =>
            simp only [step] at he
            split at he <;> cases he
            · rename_i ho; rw [ho] at ih ⊢; exact ⟨rfl, ih⟩
            · rename_i ho; rw [ho]; exact ⟨rfl, ih⟩
            · rename_i ho; rw [ho]; exact ⟨rfl, ih⟩
          | _ => exact absurd rfl hin

/-- **C79** (return values): in every history `xlog_global_init` answers 0 and creates the mutex if there is none, else 1;
`xlog_global_cleanup` answers 0 and destroys it if there is one, else 1. -/
theorem global_values {es : List Ev} {s : Sys} {obs : List Obs} (h : run Sys.init es = some (s, obs)) : Lifecycle false obs :=
  lifecycle_run es h

/-! ## Findings -/

/-- Thread `t` waits, inside its callback, for the mutex it holds; nobody else is under the lock. -/
structure Stuck (s : Sys) (t : Nat) : Prop where
  mutex : s.mutex = some (some t)
  dead : s.pc t = .dead
  others : ∀ u, u ≠ t → (∀ c todo v, s.pc u ≠ .body c todo v) ∧ (∀ c todo v, s.pc u ≠ .inCb c todo v) ∧ s.pc u ≠ .unlock

/-- Something was written, configured, or a lock changed hands. -/
def Obs.progress : Obs → Bool
  | .enter _ | .commit _ | .out _ _ | .failed _ | .leave _ | .undefined _ | .nested _ _ => true
  | _ => false

theorem stuck_go {s : Sys} {t u : Nat} (h : Stuck s t) (hu : u ≠ t) {p : Pc} (h1 : ∀ c todo v, p ≠ .body c todo v)
    (h2 : ∀ c todo v, p ≠ .inCb c todo v) (h3 : p ≠ .unlock) : Stuck (s.go u p) t := by
  refine ⟨h.mutex, ?_, fun w hw => ?_⟩
  · simp [Sys.go, hu.symm, h.dead]
  · by_cases e : w = u
    · simp only [Sys.go, e, if_true]; exact ⟨h1, h2, h3⟩
    · simp only [Sys.go, e, if_false]; exact h.others w hw

theorem stuck_step {s s' : Sys} {t : Nat} (h : Stuck s t) {e : Ev} {obs : List Obs} (hi : e.inner = true) (he : step s e = some (s', obs)) :
    Stuck s' t ∧ ∀ o ∈ obs, o.progress = false := by
  cases e with
  | globalInit => cases hi
  | globalCleanup => cases hi
  | call u c =>
    simp only [step] at he
    split at he <;> cases he
    rename_i hp
    have hu : u ≠ t := by rintro rfl; rw [h.dead] at hp; cases hp
    refine ⟨stuck_go h hu ?_ ?_ (start_not c).2, by simp [Obs.progress]⟩
    · intro d todo v e; unfold start at e; grind
    · intro d todo v e; unfold start at e; grind
  | fail u =>
    simp only [step] at he
    split at he <;> cases he
    rename_i hp
    have hu : u ≠ t := by rintro rfl; rw [h.dead] at hp; cases hp
    exact absurd hp ((h.others u hu).1 _ _ _)
  | nest u c =>
    simp only [step] at he
    split at he <;> cases he
    rename_i hp _
    have hu : u ≠ t := by rintro rfl; rw [h.dead] at hp; cases hp
    exact absurd hp ((h.others u hu).2.1 _ _ _)
  | cbRet u =>
    simp only [step] at he
    split at he <;> cases he
    rename_i hp
    have hu : u ≠ t := by rintro rfl; rw [h.dead] at hp; cases hp
    exact absurd hp ((h.others u hu).2.1 _ _ _)
  | act u =>
    simp only [step, act] at he
    have hu : u ≠ t := by
      rintro rfl; rw [h.dead] at he; cases he
    obtain ⟨h1, h2, h3⟩ := h.others u hu
    cases hp : s.pc u with
    | idle => rw [hp] at he; cases he
    | inCb => rw [hp] at he; cases he
    | dead => rw [hp] at he; cases he
    | body => exact absurd hp (h1 _ _ _)
    | unlock => exact absurd hp h3
    | chk1 | chk2 | chk3 =>
      rw [hp] at he
      cases he
      refine ⟨?_, by simp⟩
      split <;> exact stuck_go h hu (by simp) (by simp) (by simp)
    | get | done =>
      rw [hp] at he
      cases he
      exact ⟨stuck_go h hu (by simp) (by simp) (by simp), by simp [Obs.progress]⟩
    | want c =>
      rw [hp] at he
      rw [h.mutex] at he
      cases he
      exact ⟨stuck_go h hu (by simp) (by simp) (by simp), by simp⟩
    | lock c =>
      rw [hp] at he
      rw [h.mutex] at he
      cases he

theorem stuck_run {t : Nat} : ∀ (es : List Ev) {s s' : Sys} {obs : List Obs}, Stuck s t → (∀ e ∈ es, e.inner = true) →
    run s es = some (s', obs) → ∀ o ∈ obs, o.progress = false
  | [], s, s', obs, h, _, hr => by
    simp only [run, Option.some.injEq, Prod.mk.injEq] at hr
    obtain ⟨rfl, rfl⟩ := hr
    simp
  | e :: es, s, s', obs, h, hi, hr => by
    simp only [run] at hr
    cases he : step s e with
    | none => rw [he] at hr; cases hr
    | some r =>
      obtain ⟨s1, o1⟩ := r
      rw [he] at hr
      simp only [Option.bind_some] at hr
      cases hk : run s1 es with
      | none => rw [hk] at hr; cases hr
      | some r2 =>
        obtain ⟨s2, o2⟩ := r2
        rw [hk] at hr
        simp only [Option.map_some, Option.some.injEq, Prod.mk.injEq] at hr
        obtain ⟨rfl, rfl⟩ := hr
        obtain ⟨a, b⟩ := stuck_step h (hi e (by simp)) he
        have := stuck_run es a (fun e he => hi e (by simp [he])) hk
        intro o ho
        rcases List.mem_append.1 ho with ho | ho
        · exact b o ho
        · exact this o ho

/-- The call needs its turn: a configuring call with an acceptable value, or a message that passes. -/
def NeedsTurn (n : Conf) (c : Call) : Prop := (accept n c).isSome = true ∨ ∃ l g i, c = .print l g i ∧ Passes n l

/-- FINDING: a callback that logs, or changes the configuration, deadlocks xlog: whatever any thread does from then on, nothing is written and
nothing is configured any more (xlog.c 540-543 runs the callback with the mutex held). -/
theorem callback_deadlock {es : List Ev} (hi : ∀ e ∈ es, e.inner = true) {t : Nat} {c : Call} {s1 s2 : Sys} {o1 o2 : List Obs}
    (h1 : run Sys.init (.globalInit :: es) = some (s1, o1)) (h2 : step s1 (.nest t c) = some (s2, o2)) :
    ∃ obs' S, o1 = .globalInit 0 :: obs' ∧ Run St.init obs' S ∧
      (NeedsTurn S.conf c → ∀ (es' : List Ev) (s3 : Sys) (o3 : List Obs), (∀ e ∈ es', e.inner = true) → run s2 es' = some (s3, o3) →
        ∀ o ∈ o3, o.progress = false) := by
  simp only [run, step, Sys.init, Option.bind_some, Option.map_eq_some_iff, Prod.exists, Prod.mk.injEq] at h1
  obtain ⟨s1, o1, h, rfl, rfl⟩ := h1
  have inv : Inv ⟨Cfg.init, some none, fun _ => .idle⟩ St.init 0 :=
    ⟨fun _ => trivial, ⟨rfl, rfl, rfl, rfl⟩, fun _ => ⟨rfl, rfl, rfl, rfl, rfl, rfl, rfl, rfl, rfl, rfl, rfl, rfl, rfl, rfl⟩,
      .inl ⟨none, rfl, fun t => ⟨fun h => h.elim, fun h => by cases h⟩⟩⟩
  obtain ⟨S, a, iv⟩ := run_inv es inv hi (fun hm => by cases hm) h
  refine ⟨o1, S, rfl, a, fun hn es' s3 o3 hi' hr => ?_⟩
  refine stuck_run es' (t := t) ?_ hi' hr
  simp only [step] at h2
  split at h2
  · rename_i c' todo v o hp hm
    have need : needsLock s1.cfg c = true := by
      rcases hn with hn | ⟨l, g, i, rfl, p1, p2, p3, p4⟩
      · cases hs : stores c with
        | none => rw [refused hs] at hn; cases hn
        | some r =>
          cases c <;> first | (simp [stores] at hs; done) | (simp [needsLock, hs])
      · have ho := iv.op
        simp only [needsLock, ho.target, ho.min]
        simp
        omega
    rw [need] at h2
    simp only [if_true, Option.some.injEq, Prod.mk.injEq] at h2
    obtain ⟨rfl, _⟩ := h2
    have hr := iv.rel t
    rw [hp] at hr
    have hin : (S.th t).Inside := by
      cases hS : S.th t <;> rw [hS] at hr <;> simp_all [TRel, TS.Inside]
    have hown : s1.mutex = some (some t) := by
      rcases iv.excl with ⟨o', ho, hi⟩ | ⟨hm', _⟩
      · rw [ho, (hi t).1 hin]
      · rw [hm] at hm'; cases hm'
    refine ⟨hown, by simp [Sys.go], fun u hu => ?_⟩
    have hnu : ¬ (S.th u).Inside := fun k => hu (iv.excl.uniq k hin)
    have hru := iv.rel u
    simp only [Sys.go, hu, if_false]
    cases hS : S.th u <;> rw [hS] at hru hnu <;> simp [TS.Inside] at hnu
    all_goals
      refine ⟨fun c todo v e => ?_, fun c todo v e => ?_, fun e => ?_⟩ <;> rw [e] at hru <;> simp [TRel] at hru
  · cases h2

/-- `n` steps of thread `t`. -/
def acts (t n : Nat) : List Ev := List.replicate n (.act t)

/-- What is observed in a run. -/
def seen (es : List Ev) : Option (List Obs) := (run Sys.init es).map Prod.snd

/-- FINDING: the level is tested before the lock is taken: a line can appear after `xlog_set_min_level(LOG_LEVEL_OFF)` has
returned. -/
theorem line_after_off : seen ([.globalInit, .call 1 (.print 5 none 7)] ++ acts 1 3 ++ [.call 2 (.minLevel 0)] ++ acts 2 6 ++ acts 1 13) =
    some [.globalInit 0, .call 1 (.print 5 none 7), .call 2 (.minLevel 0), .enter 2, .commit 2, .leave 2, .ret 2 0,
      .enter 1, .out 1 (.console 7 ⟨5, some 8, some 1, false⟩)] := by rfl

/-- FINDING: without `xlog_global_init` a callback can run with the function of one configuration and the data of another. -/
theorem mixed_callback_without_init :
    seen ([.call 1 (.target 8)] ++ acts 1 6 ++ [.call 1 (.callback 10 11)] ++ acts 1 5 ++
      [.call 2 (.callback 20 21)] ++ acts 2 2 ++ [.call 1 (.print 5 none 7)] ++ acts 1 20) =
    some [.call 1 (.target 8), .enter 1, .commit 1, .leave 1, .ret 1 0, .call 1 (.callback 10 11), .enter 1, .commit 1, .leave 1, .ret 1 0,
      .call 2 (.callback 20 21), .enter 2, .commit 2, .call 1 (.print 5 none 7), .enter 1,
      .out 1 (.callback 20 11 7 ⟨5, some 8, some 1, false⟩)] := by rfl

/-- FINDING: `xlog_global_init` while another thread is inside a call: that thread unlocks a mutex it does not hold. -/
theorem init_during_call : seen ([.call 1 (.minLevel 3)] ++ acts 1 2 ++ [.globalInit] ++ acts 1 2) =
    some [.call 1 (.minLevel 3), .enter 1, .commit 1, .globalInit 0, .undefined 1] := by rfl

/-- FINDING: `xlog_global_cleanup` while another thread is inside a call destroys a locked mutex. -/
theorem cleanup_during_call : seen ([.globalInit, .call 1 (.minLevel 3)] ++ acts 1 3 ++ [.globalCleanup]) =
    some [.globalInit 0, .call 1 (.minLevel 3), .enter 1, .commit 1, .globalCleanup 0, .undefined 1] := by rfl

/-- FINDING: … and between the test of the pointer and its use: a NULL mutex is locked. -/
theorem cleanup_before_lock : seen ([.globalInit, .call 1 (.minLevel 3)] ++ acts 1 1 ++ [.globalCleanup] ++ acts 1 1) =
    some [.globalInit 0, .call 1 (.minLevel 3), .globalCleanup 0, .undefined 1] := by rfl

/-- A run of two threads that meets the premises of `threads_conform` and `callback_deadlock`. -/
theorem demo : ∃ s o, run Sys.init ([.globalInit, .call 1 (.callback 10 11)] ++ acts 1 7 ++ [.call 2 (.target 12)] ++ acts 2 8 ++
      [.call 1 (.print 3 (some 9) 7), .call 2 (.flushMode 1)] ++ acts 1 4 ++ [.act 2, .act 1] ++ acts 1 16) = some (s, o) ∧
    o.drop 13 = [.enter 1, .out 1 (.console 7 ⟨3, some 8, some 9, false⟩), .out 1 (.callback 10 11 7 ⟨3, some 8, some 9, false⟩)] ∧
    (step s (.nest 1 (.minLevel 0))).isSome = true ∧ NeedsTurn St.init.conf (.minLevel 0) :=
  ⟨_, _, rfl, rfl, rfl, .inl rfl⟩

end Verif.XlogMt
