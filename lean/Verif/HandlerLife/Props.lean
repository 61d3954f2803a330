import Verif.HandlerLife.Inv
/-!
# A queue handler's life: theorems (C88)
-/
namespace Verif.HandlerLife

/-! ## Further facts -/

theorem wrk_main (e : Env) (s : St) (c : Choice) : (wrkStep e s c).main = s.main := by
  unfold wrkStep
  cases s.wrk
  case loop => simp only; split <;> rfl
  case pop =>
    cases c with
    | grow ok => cases hf : e.fixed <;> cases ok <;> simp [popStep, hf, St.touch]
    | suicide => cases hs : e.sem <;> cases hq : e.que <;> simp [popStep, killHdl, killQue, killSem, freeThr, hs, hq, St.touch]
    | _ => simp [popStep, St.touch]
  case buf => cases h : e.buf <;> simp [St.touch]
  all_goals simp [St.touch]

/-- what the system answered, as far as the creating thread has come -/
def Facts (e : Env) : Main → Prop
  | .args => True
  | .hdl => e.args = true
  | .sem => e.args = true ∧ e.hdl = true
  | .que => e.args = true ∧ e.hdl = true
  | .thr => e.args = true ∧ e.hdl = true ∧ e.que = true
  | .made ok => ok = (e.args && e.hdl && e.que && e.thr)
  | .kill _ c => e.args = true ∧ e.hdl = true ∧ c = !(e.que && e.thr)
  | .over => (e.args && e.hdl && e.que && e.thr) = true

theorem facts_main {e : Env} {s : St} (i : Inv e s) (f : Facts e s.main) : Facts e (mainStep e s).main := by
  obtain ⟨hdl, sem, que, thr, buf, flag, posted, ub, main, wrk, trace⟩ := s
  have hk := i.kill
  simp only at f hk
  cases main with
  | made ok => cases ok <;> simp_all [mainStep, Facts]
  | kill k c =>
    have := (hk k c rfl).1
    rcases k with _ | _ | _ | _ | _ | _ | k
    · exact f
    · exact f
    · cases thr <;> by_cases hw : wrk = .gone <;> simp_all [mainStep, Facts]
    · exact f
    · exact f
    · cases c <;> cases hq : e.que <;> cases ht : e.thr <;> simp_all [mainStep, Facts]
    · omega
  | args => cases ha : e.args <;> simp_all [mainStep, Facts]
  | hdl => cases ha : e.hdl <;> simp_all [mainStep, Facts]
  | sem => exact f
  | que => cases ha : e.que <;> simp_all [mainStep, Facts]
  | thr => cases ha : e.thr <;> simp_all [mainStep, Facts]
  | over => exact f

theorem facts_run {e : Env} : ∀ (evs : List Ev) {s : St}, Inv e s → Facts e s.main → Tame evs →
    Facts e (run e s evs).main := by
  intro evs
  induction evs with
  | nil => intro s _ f _; exact f
  | cons ev evs ih =>
    intro s i f t
    have i' : Inv e (step e s ev) := inv_run [ev] i (fun x hx => t x (by
      rw [List.mem_singleton] at hx; subst hx; exact List.mem_cons_self ..))
    refine ih (s := step e s ev) i' ?_ (fun x hx => t x (List.mem_cons_of_mem _ hx))
    cases ev with
    | main => exact facts_main i f
    | wrk c => rw [show (step e s (.wrk c)).main = s.main from wrk_main e s c]; exact f

theorem facts_at {e : Env} {evs : List Ev} (t : Tame evs) : Facts e (at_ e evs).main :=
  facts_run evs (inv_init e) trivial t

theorem snocInd {α : Type} {P : List α → Prop} (nil : P []) (snoc : ∀ l a, P l → P (l ++ [a])) (l : List α) : P l := by
  have : ∀ l : List α, P l.reverse := by
    intro l
    induction l with
    | nil => exact nil
    | cons a l ih => rw [List.reverse_cons]; exact snoc _ _ ih
  have h := this l.reverse
  rwa [List.reverse_reverse] at h

structure Flag (s : St) : Prop where
  why : s.flag = true → flagged s.main = true ∨ s.main = .made false ∨ s.wrk = .drop ∨ s.wrk = .stop ∨ s.wrk = .gone
  post : (∃ k c, s.main = .kill k c ∧ 2 ≤ k) ∨ s.main = .over → s.posted = true

theorem flag_main {e : Env} {s : St} (i : Inv e s) (f : Flag s) : Flag (mainStep e s) := by
  obtain ⟨hdl, sem, que, thr, buf, flag, posted, ub, main, wrk, trace⟩ := s
  have hk := i.kill
  have he := i.early
  obtain ⟨f1, f2⟩ := f
  simp only at f1 f2 hk he
  cases main with
  | made ok =>
    cases ok
    · exact ⟨f1, f2⟩
    · refine ⟨?_, ?_⟩
      · intro h
        rcases f1 h with h | h | h
        · simp [flagged] at h
        · simp at h
        · exact Or.inr (Or.inr h)
      · rintro (⟨k, c, h, h2⟩ | h)
        · simp only [mainStep, if_true, Main.kill.injEq] at h; omega
        · simp [mainStep] at h
  | kill k c =>
    have := (hk k c rfl).1
    rcases k with _ | _ | _ | _ | _ | _ | k
    · refine ⟨fun _ => Or.inl rfl, ?_⟩
      rintro (⟨k, c, h, h2⟩ | h)
      · simp only [mainStep, Main.kill.injEq] at h; omega
      · simp [mainStep] at h
    · exact ⟨fun _ => Or.inl rfl, fun _ => rfl⟩
    · have hp : posted = true := f2 (Or.inl ⟨2, c, rfl, by omega⟩)
      cases thr <;> by_cases hw : wrk = .gone <;>
        exact ⟨by simp [mainStep, hw, flagged, freeThr, St.touch], fun _ => by simp [mainStep, hw, freeThr, St.touch, hp]⟩
    · have hp : posted = true := f2 (Or.inl ⟨3, c, rfl, by omega⟩)
      refine ⟨fun _ => Or.inl rfl, fun _ => ?_⟩
      cases hs : e.sem <;> simp [mainStep, killSem, St.touch, hs, hp]
    · have hp : posted = true := f2 (Or.inl ⟨4, c, rfl, by omega⟩)
      refine ⟨fun _ => Or.inl rfl, fun _ => ?_⟩
      cases hs : e.que <;> simp [mainStep, killQue, St.touch, hs, hp]
    · have hp : posted = true := f2 (Or.inl ⟨5, c, rfl, by omega⟩)
      refine ⟨fun _ => ?_, fun _ => ?_⟩
      · cases c <;> simp [mainStep, flagged, killHdl]
      · simp [mainStep, killHdl, hp]
    · omega
  | args =>
    have := he rfl; subst this
    cases ha : e.args <;> refine ⟨?_, ?_⟩ <;> simp [mainStep, ha]
  | hdl => cases ha : e.hdl <;> refine ⟨?_, ?_⟩ <;> simp [mainStep, ha]
  | sem =>
    have := he rfl; subst this
    refine ⟨?_, ?_⟩ <;> simp [mainStep, St.touch]
  | que =>
    have := he rfl; subst this
    cases ha : e.que <;> refine ⟨?_, ?_⟩ <;> simp [mainStep, ha, St.touch]
  | thr =>
    have := he rfl; subst this
    cases ha : e.thr <;> refine ⟨?_, ?_⟩ <;> simp [mainStep, ha, St.touch]
  | over => exact ⟨f1, f2⟩

theorem wrk_posted (e : Env) (s : St) (c : Choice) (hc : c ≠ .suicide) : (wrkStep e s c).posted = s.posted := by
  unfold wrkStep
  cases s.wrk
  case loop => simp only; split <;> rfl
  case pop =>
    cases c with
    | grow ok => cases hf : e.fixed <;> cases ok <;> simp [popStep, hf, St.touch]
    | suicide => exact absurd rfl hc
    | _ => simp [popStep, St.touch]
  case buf => cases h : e.buf <;> simp [St.touch]
  all_goals simp [St.touch]

theorem flag_wrk {e : Env} {s : St} (c : Choice) (hc : c ≠ .suicide) (f : Flag s) : Flag (wrkStep e s c) := by
  refine ⟨?_, ?_⟩
  · rw [wrk_main]
    have := f.why
    unfold wrkStep
    cases hw : s.wrk
    case none => simpa only [hw] using this
    case gone => simpa only [hw] using this
    case loop => simp only; simp only [hw] at this; split <;> simp_all [St.touch]
    case pop =>
      simp only [hw] at this
      cases c with
      | grow ok => cases hf : e.fixed <;> cases ok <;> simp_all [popStep, St.touch]
      | msg ok => cases ok <;> simp_all [popStep, St.touch]
      | suicide => exact absurd rfl hc
      | _ => simp_all [popStep, St.touch]
    case start => simp only [hw] at this; cases h : e.fixed <;> simp_all [St.touch]
    case buf => simp only [hw] at this; cases h : e.buf <;> simp_all [St.touch]
    all_goals simp only [hw] at this; simp_all [St.touch]
  · rw [wrk_main, wrk_posted e s c hc]; exact f.post

theorem tame_cons {ev : Ev} {evs : List Ev} (t : Tame (ev :: evs)) : Tame [ev] ∧ Tame evs :=
  ⟨fun x hx => t x (by rw [List.mem_singleton] at hx; subst hx; exact List.mem_cons_self ..),
    fun x hx => t x (List.mem_cons_of_mem _ hx)⟩

theorem flag_run {e : Env} : ∀ (evs : List Ev) {s : St}, Inv e s → Flag s → Tame evs → Flag (run e s evs) := by
  intro evs
  induction evs with
  | nil => intro s _ f _; exact f
  | cons ev evs ih =>
    intro s i f t
    obtain ⟨t1, t2⟩ := tame_cons t
    refine ih (s := step e s ev) (inv_run [ev] i t1) ?_ t2
    cases ev with
    | main => exact flag_main i f
    | wrk c => exact flag_wrk c (fun h => t1 _ (List.mem_singleton.mpr rfl) (by rw [h])) f

theorem flag_at {e : Env} {evs : List Ev} (t : Tame evs) : Flag (at_ e evs) :=
  flag_run evs (inv_init e) ⟨by simp [St.init], by simp [St.init]⟩ t

/-- a count that no step lowers and the steps chosen raise, as long as it is below `N` -/
theorem progress {e : Env} (P : St → Prop) (f : St → Nat) (sel : Ev → Bool) (N : Nat)
    (pres : ∀ s ev, ev ≠ .wrk .suicide → P s → P (step e s ev))
    (mono : ∀ s ev, ev ≠ .wrk .suicide → P s → f s ≤ f (step e s ev))
    (inc : ∀ s ev, ev ≠ .wrk .suicide → P s → sel ev = true → f s < N → f s < f (step e s ev)) :
    ∀ (evs : List Ev) (s : St), Tame evs → P s → N ≤ f s + evs.countP sel → N ≤ f (run e s evs) ∧ P (run e s evs) := by
  intro evs
  induction evs with
  | nil => intro s _ p h; exact ⟨by simp at h; exact h, p⟩
  | cons ev evs ih =>
    intro s t p h
    have hev : ev ≠ .wrk .suicide := t ev (List.mem_cons_self ..)
    refine ih (step e s ev) (tame_cons t).2 (pres s ev hev p) ?_
    have h1 := mono s ev hev p
    rw [List.countP_cons] at h
    by_cases hs : sel ev = true
    · rw [if_pos hs] at h
      by_cases hN : f s < N
      · have := inc s ev hev p hs hN; omega
      · omega
    · rw [if_neg hs] at h; omega

theorem main_trace (e : Env) (s : St) : (mainStep e s).trace = s.trace := by
  obtain ⟨hdl, sem, que, thr, buf, flag, posted, ub, main, wrk, trace⟩ := s
  cases main with
  | made ok => cases ok <;> simp [mainStep]
  | kill k c =>
    rcases k with _ | _ | _ | _ | _ | k
    · rfl
    · rfl
    · cases thr <;> by_cases hw : wrk = .gone <;> simp [mainStep, hw, freeThr, St.touch]
    · cases h : e.sem <;> simp [mainStep, killSem, St.touch, h]
    · cases h : e.que <;> simp [mainStep, killQue, St.touch, h]
    · rfl
  | args => cases h : e.args <;> simp [mainStep, h]
  | hdl => cases h : e.hdl <;> simp [mainStep, h]
  | sem => rfl
  | que => cases h : e.que <;> simp [mainStep, h, St.touch]
  | thr => cases h : e.thr <;> simp [mainStep, h, St.touch]
  | over => rfl

/-- the creating and destroying thread changes the worker only by starting it -/
theorem main_wrk {e : Env} {s : St} (i : Inv e s) (h : s.wrk ≠ .none) : (mainStep e s).wrk = s.wrk := by
  obtain ⟨hdl, sem, que, thr, buf, flag, posted, ub, main, wrk, trace⟩ := s
  have hw := i.work
  simp only at h hw
  cases main with
  | made ok => cases ok <;> simp [mainStep]
  | kill k c =>
    rcases k with _ | _ | _ | _ | _ | k
    · rfl
    · rfl
    · cases thr <;> by_cases hw : wrk = .gone <;> simp [mainStep, hw, freeThr, St.touch]
    · cases h : e.sem <;> simp [mainStep, killSem, St.touch, h]
    · cases h : e.que <;> simp [mainStep, killQue, St.touch, h]
    · rfl
  | args => cases h : e.args <;> simp [mainStep, h]
  | hdl => cases h : e.hdl <;> simp [mainStep, h]
  | sem => rfl
  | que => cases h : e.que <;> simp [mainStep, h, St.touch]
  | thr => simp [working] at hw; exact absurd hw h
  | over => rfl

theorem main_wrk_gone {e : Env} {s : St} (i : Inv e s) (h : s.wrk = .gone) : (mainStep e s).wrk = .gone := by
  rw [main_wrk i (by rw [h]; simp)]; exact h

/-! ## Creation -/

/-- the creation answers a handle exactly if the arguments are valid and the handler's memory, the queue and the thread
are granted -/
theorem create_answer (e : Env) (evs : List Ev) (t : Tame evs) (ok : Bool) (h : (at_ e evs).main = .made ok) :
    ok = true ↔ e.args = true ∧ e.hdl = true ∧ e.que = true ∧ e.thr = true := by
  have f := facts_at (e := e) t
  rw [h] at f
  simp only [Facts] at f
  subst f
  simp [and_assoc]

/-- a creation that answers NULL leaves nothing behind: no memory, no thread, no callback was or will be called -/
theorem create_refused (e : Env) (evs : List Ev) (t : Tame evs) (h : (at_ e evs).main = .made false)
    (more : List Ev) (tm : Tame more) :
    Clean (run e (at_ e evs) more) ∧ (run e (at_ e evs) more).trace = [] ∧ (run e (at_ e evs) more).ub = false := by
  have key : ∀ more, Tame more → (run e (at_ e evs) more).main = .made false := by
    intro more
    induction more using snocInd with
    | nil => intro _; exact h
    | snoc l ev ih =>
      intro tm
      have := ih (fun x hx => tm x (List.mem_append_left _ hx))
      simp only [run, List.foldl_append, List.foldl_cons, List.foldl_nil] at this ⊢
      cases ev with
      | main => simp only [step, mainStep, this]; simp [this]
      | wrk c => simp only [step]; rw [wrk_main]; exact this
  have i := inv_run more (inv_at (e := e) t) tm
  have hm := key more tm
  generalize run e (at_ e evs) more = s at i hm
  have hw : s.wrk = .none := by have := i.work; rw [hm] at this; simpa [working] using this
  have hh := i.held
  rw [hm] at hh
  simp only [held, Prod.mk.injEq, Bool.false_and] at hh
  refine ⟨⟨hh.1, hh.2.1, hh.2.2.1, hh.2.2.2, ?_⟩, i.silent (Or.inl hw), i.ub⟩
  cases hb : s.buf
  · rfl
  · have := i.buf hb; rw [hw] at this; simp at this

/-- the creation answers after at most twelve steps of its thread, whatever the worker does meanwhile -/
theorem create_returns (e : Env) (evs : List Ev) (t : Tame evs) (h : 12 ≤ turns evs) : ¬ Creating (at_ e evs).main := by
  let f : St → Nat := fun s => match s.main with
    | .args => 0
    | .hdl => 1
    | .sem => 2
    | .que => 3
    | .thr => 4
    | .kill k true => 5 + k
    | _ => 12
  have hf : ∀ s : St, Inv e s → f s = 12 → ¬ Creating s.main := by
    intro s i h
    cases hm : s.main with
    | kill k c =>
      have := (i.kill k c hm).1
      cases c
      · simp [Creating]
      · simp only [f, hm] at h; omega
    | _ => simp_all [f, Creating]
  have hle : ∀ s, Inv e s → f s ≤ 12 := by
    intro s i
    cases hm : s.main with
    | kill k c =>
      have := (i.kill k c hm).1
      cases c <;> simp [f, hm]; omega
    | _ => simp [f, hm]
  have main : ∀ s, Inv e s → f s < 12 → f s < f (mainStep e s) := by
    intro s i hlt
    obtain ⟨hdl, sem, que, thr, buf, flag, posted, ub, main, wrk, trace⟩ := s
    have hk := i.kill
    have hh := i.held
    simp only at hk hh
    cases main with
    | args => cases ha : e.args <;> simp [f, mainStep, ha]
    | hdl => cases ha : e.hdl <;> simp [f, mainStep, ha]
    | sem => simp [f, mainStep]
    | que => cases ha : e.que <;> simp [f, mainStep, ha]
    | thr => cases ha : e.thr <;> simp [f, mainStep, ha]
    | made ok => simp [f] at hlt
    | over => simp [f] at hlt
    | kill k c =>
      cases c
      · simp [f] at hlt
      · have h5 := (hk k true rfl).1
        rcases k with _ | _ | _ | _ | _ | _ | k
        · simp [f, mainStep]
        · simp [f, mainStep]
        · simp only [held, Prod.mk.injEq] at hh
          have : thr = false := by simpa using hh.2.2.2
          subst this
          simp [f, mainStep]
        · simp [f, mainStep]
        · simp [f, mainStep]
        · simp [f, mainStep]
        · omega
  have := (progress (e := e) (Inv e) f (fun ev => decide (ev = .main)) 12
    (fun s ev hev i => inv_run [ev] i (fun x hx => by rw [List.mem_singleton] at hx; subst hx; exact hev))
    (fun s ev hev i => by
      cases ev with
      | main =>
        by_cases h12 : f s < 12
        · exact Nat.le_of_lt (main s i h12)
        · have hs := hle s i
          have : ¬ Creating s.main := hf s i (by omega)
          have h' : f (mainStep e s) = 12 := by
            cases hm : s.main with
            | made ok => cases ok <;> simp [f, mainStep, hm]
            | over => simp [f, mainStep, hm]
            | kill k c =>
              cases c
              · have h5 := (i.kill k false hm).1
                rcases k with _ | _ | _ | _ | _ | _ | k
                · simp [f, mainStep, hm]
                · simp [f, mainStep, hm]
                · cases h1 : s.thr <;> by_cases h2 : s.wrk = .gone <;> simp [f, mainStep, hm, h1, h2]
                · simp [f, mainStep, hm]
                · simp [f, mainStep, hm]
                · simp [f, mainStep, hm]
                · omega
              · rw [hm] at this; exact absurd rfl this
            | _ => rw [hm] at this; exact absurd trivial this
          show f s ≤ f (mainStep e s)
          omega
      | wrk c =>
        have : f (wrkStep e s c) = f s := by simp only [f]; rw [wrk_main]
        exact Nat.le_of_eq this.symm)
    (fun s ev hev i hs hlt => by
      have : ev = .main := by simpa using hs
      subst this
      exact main s i hlt)
    evs .init t (inv_init e) (by unfold turns at h; omega))
  refine hf _ this.2 ?_
  have h2 := hle _ this.2
  have h3 := this.1
  show f (run e .init evs) = 12
  omega

/-- a handler that was created owns its memory, its queue and its thread; its semaphore only if the system granted it -/
theorem created_live (e : Env) (evs : List Ev) (t : Tame evs) (h : (at_ e evs).main = .made true) :
    (at_ e evs).hdl = true ∧ (at_ e evs).que = true ∧ (at_ e evs).thr = true ∧ (at_ e evs).sem = e.sem := by
  have := (inv_at (e := e) t).held
  rw [h] at this
  simp only [held, Prod.mk.injEq, Bool.true_and] at this
  exact ⟨this.1, this.2.2.1, this.2.2.2, this.2.1⟩

/-! ## Callbacks -/

/-- **no misuse of memory**, whatever the system answers and however the threads interleave -/
theorem never_undefined (e : Env) (evs : List Ev) (t : Tame evs) : (at_ e evs).ub = false := (inv_at t).ub

/-- READY comes first, STOP last, each at most once, messages only between them -/
theorem callbacks_in_order (e : Env) (evs : List Ev) (t : Tame evs) : Shape (at_ e evs).trace := by
  have i := inv_at (e := e) t
  generalize at_ e evs = s at i
  by_cases h1 : s.wrk = .none ∨ s.wrk = .start
  · rw [i.silent h1]; exact .silent
  · by_cases h2 : s.wrk = .gone
    · obtain ⟨n, h⟩ := i.done h2; rw [h]; exact .closed n
    · obtain ⟨n, h⟩ := i.running (fun h => h1 (Or.inl h)) (fun h => h1 (Or.inr h)) h2
      rw [h]; exact .open n

/-- once STOP was reported, pushes are refused and no callback is called any more -/
theorem stop_is_final (e : Env) (evs : List Ev) (t : Tame evs) (h : Cb.stop ∈ (at_ e evs).trace)
    (more : List Ev) (tm : Tame more) :
    (run e (at_ e evs) more).trace = (at_ e evs).trace ∧ accepts (run e (at_ e evs) more) = false := by
  have i := inv_at (e := e) t
  have hw : (at_ e evs).wrk = .gone := by
    generalize at_ e evs = s at i h
    by_cases h1 : s.wrk = .none ∨ s.wrk = .start
    · rw [i.silent h1] at h; simp at h
    · by_cases h2 : s.wrk = .gone
      · exact h2
      · obtain ⟨n, h'⟩ := i.running (fun h => h1 (Or.inl h)) (fun h => h1 (Or.inr h)) h2
        rw [h'] at h
        simp [List.mem_replicate] at h
  generalize at_ e evs = s at i hw
  have key : ∀ (more : List Ev) (s : St), Tame more → Inv e s → s.wrk = .gone →
      (run e s more).trace = s.trace ∧ (run e s more).wrk = .gone := by
    intro more
    induction more with
    | nil => intro s _ _ h; exact ⟨rfl, h⟩
    | cons ev evs ih =>
      intro s t i h
      obtain ⟨t1, t2⟩ := tame_cons t
      have i' : Inv e (step e s ev) := inv_run [ev] i t1
      have hs : (step e s ev).trace = s.trace ∧ (step e s ev).wrk = .gone := by
        cases ev with
        | wrk c => simp only [step, wrkStep, h]; simp
        | main => exact ⟨main_trace e s, main_wrk_gone i h⟩
      have := ih (step e s ev) t2 i' hs.2
      exact ⟨this.1.trans hs.1, this.2⟩
  obtain ⟨h1, h2⟩ := key more s tm i hw
  refine ⟨h1, ?_⟩
  have := (inv_run more i tm).left (Or.inr (Or.inr h2))
  simp [accepts, this]

/-- while the worker has not decided to leave and the destruction was not called, pushes are not refused -/
theorem push_open (e : Env) (evs : List Ev) (t : Tame evs) (h : (at_ e evs).main = .made true)
    (hw : (at_ e evs).wrk = .start ∨ (at_ e evs).wrk = .buf ∨ (at_ e evs).wrk = .loop ∨ (at_ e evs).wrk = .pop) :
    accepts (at_ e evs) = true := by
  have hl := created_live e evs t h
  have f := flag_at (e := e) t
  have : (at_ e evs).flag = false := by
    cases hf : (at_ e evs).flag
    · rfl
    · have := f.why hf
      rw [h] at this
      rcases hw with hw | hw | hw | hw <;> rw [hw] at this <;> simp [flagged] at this
  simp [accepts, hl.2.1, this]

/-! ## Destruction -/

/-- **when the destruction has returned**: the worker is gone, READY and STOP were reported, everything is freed, nothing was
used after it was freed, and no callback comes any more -/
theorem destroyed (e : Env) (evs : List Ev) (t : Tame evs) (h : (at_ e evs).main = .over) (more : List Ev) (tm : Tame more) :
    Clean (run e (at_ e evs) more) ∧ Complete (at_ e evs).trace ∧
    (run e (at_ e evs) more).trace = (at_ e evs).trace ∧ (run e (at_ e evs) more).ub = false := by
  have i := inv_at (e := e) t
  have hw := i.join (by rw [h]; rfl)
  have hc := i.done hw
  have hs : Cb.stop ∈ (at_ e evs).trace := by
    obtain ⟨n, hn⟩ := hc; rw [hn]; simp
  have hm : (run e (at_ e evs) more).main = .over := by
    generalize at_ e evs = s at h
    clear i hw hc hs tm
    induction more generalizing s with
    | nil => exact h
    | cons ev evs ih =>
      refine ih (step e s ev) ?_
      cases ev with
      | main => simp only [step, mainStep, h]
      | wrk c => simp only [step]; rw [wrk_main]; exact h
  have i' := inv_run more i tm
  have hw' := i'.join (by rw [hm]; rfl)
  have hh := i'.held
  rw [hm] at hh
  simp only [held, Prod.mk.injEq] at hh
  refine ⟨⟨hh.1, hh.2.1, hh.2.2.1, hh.2.2.2, ?_⟩, hc, (stop_is_final e evs t hs more tm).1, i'.ub⟩
  cases hb : (run e (at_ e evs) more).buf
  · rfl
  · have := i'.buf hb; rw [hw'] at this; simp at this

theorem wrk_flag {e : Env} {s : St} (c : Choice) (h : s.flag = true) (hc : c ≠ .suicide) : (wrkStep e s c).flag = true := by
  unfold wrkStep
  cases s.wrk
  case loop => simp only; split <;> exact h
  case pop =>
    cases c with
    | grow ok => cases hf : e.fixed <;> cases ok <;> simp [popStep, hf, St.touch, h]
    | suicide => exact absurd rfl hc
    | _ => simp [popStep, St.touch, h]
  case buf => cases h' : e.buf <;> simp [St.touch, h]
  all_goals simp [St.touch, h]

theorem main_flag {e : Env} {s : St} (i : Inv e s) (h : s.flag = true) : (mainStep e s).flag = true := by
  obtain ⟨hdl, sem, que, thr, buf, flag, posted, ub, main, wrk, trace⟩ := s
  have he := i.early
  simp only at h he
  subst h
  cases main with
  | made ok => cases ok <;> simp [mainStep]
  | kill k c =>
    rcases k with _ | _ | _ | _ | _ | k
    · rfl
    · rfl
    · cases thr <;> by_cases hw : wrk = .gone <;> simp [mainStep, hw, freeThr, St.touch]
    · cases h : e.sem <;> simp [mainStep, killSem, St.touch, h]
    · cases h : e.que <;> simp [mainStep, killQue, St.touch, h]
    · rfl
  | over => rfl
  | _ => exact absurd (he rfl) (by simp)

/-- once the flag is set - the destruction has begun, or the worker has given up - at most one more message is handled -/
theorem at_most_one_more (e : Env) (evs : List Ev) (t : Tame evs) (h : (at_ e evs).flag = true)
    (more : List Ev) (tm : Tame more) :
    (run e (at_ e evs) more).trace.count .msg ≤ (at_ e evs).trace.count .msg + 1 := by
  have i := inv_at (e := e) t
  generalize at_ e evs = s at i h
  let g : St → Nat := fun s => s.trace.count .msg + (if s.wrk = .pop then 1 else 0)
  have key : ∀ (more : List Ev) (s : St), Tame more → Inv e s → s.flag = true → g (run e s more) ≤ g s := by
    intro more
    induction more with
    | nil => intro s _ _ _; exact Nat.le_refl _
    | cons ev evs ih =>
      intro s t i h
      obtain ⟨t1, t2⟩ := tame_cons t
      have i' : Inv e (step e s ev) := inv_run [ev] i t1
      have hs : g (step e s ev) ≤ g s ∧ (step e s ev).flag = true := by
        cases ev with
        | main =>
          refine ⟨?_, main_flag i h⟩
          simp only [g, step, main_trace]
          by_cases hw : s.wrk = .none
          · have : (mainStep e s).wrk ≠ .pop := by
              obtain ⟨hdl, sem, que, thr, buf, flag, posted, ub, main, wrk, trace⟩ := s
              have he := i.early
              simp only at hw h he
              subst hw h
              cases main with
              | made ok => cases ok <;> simp [mainStep]
              | kill k c =>
                rcases k with _ | _ | _ | _ | _ | k
                · simp [mainStep, St.touch]
                · simp [mainStep, St.touch]
                · cases thr <;> simp [mainStep, St.touch]
                · cases h : e.sem <;> simp [mainStep, killSem, St.touch, h]
                · cases h : e.que <;> simp [mainStep, killQue, St.touch, h]
                · simp [mainStep, killHdl]
              | over => simp [mainStep]
              | _ => exact absurd (he rfl) (by simp)
            simp [this]
          · rw [main_wrk i hw]; exact Nat.le_refl _
        | wrk c =>
          have hc : c ≠ .suicide := fun h => t1 _ (List.mem_singleton.mpr rfl) (by rw [h])
          refine ⟨?_, wrk_flag c h hc⟩
          obtain ⟨hdl, sem, que, thr, buf, flag, posted, ub, main, wrk, trace⟩ := s
          simp only at h
          subst h
          simp only [g, step]
          cases wrk
          case loop => simp only [wrkStep]; split <;> simp [St.touch]
          case pop =>
            cases c with
            | grow ok => cases hf : e.fixed <;> cases ok <;> simp [wrkStep, popStep, hf, St.touch]
            | suicide => exact absurd rfl hc
            | msg ok => cases ok <;> simp [wrkStep, popStep, St.touch]
            | _ => simp [wrkStep, popStep, St.touch]
          case buf => cases h' : e.buf <;> simp [wrkStep, St.touch, h']
          case start => cases h' : e.fixed <;> simp [wrkStep, St.touch, h']
          all_goals simp [wrkStep, St.touch]
      exact Nat.le_trans (ih _ t2 i' hs.2) hs.1
  have := key more s tm i h
  have h1 : (run e s more).trace.count .msg ≤ g (run e s more) := Nat.le_add_right _ _
  have h2 : g s ≤ s.trace.count .msg + 1 := by simp only [g]; split <;> omega
  omega

/-- **the destruction returns**: once it was called, two turns of its thread, seven of the worker and four more of its thread
are enough, whatever else happens in between (a callback is one step: it is assumed to return) -/
theorem destroy_returns (e : Env) (evs : List Ev) (t : Tame evs) (h : Destroying (at_ e evs).main)
    (evs1 evs2 evs3 : List Ev) (t1 : Tame evs1) (t2 : Tame evs2) (t3 : Tame evs3)
    (h1 : 2 ≤ turns evs1) (h2 : 7 ≤ works evs2) (h3 : 4 ≤ turns evs3) :
    (run e (at_ e evs) (evs1 ++ evs2 ++ evs3)).main = .over := by
  have i := inv_at (e := e) t
  have fl := flag_at (e := e) t
  generalize at_ e evs = s at i fl h
  let pos : St → Nat := fun s => match s.main with
    | .kill k false => k
    | .over => 6
    | _ => 0
  let P : St → Prop := fun s => Inv e s ∧ Flag s ∧ (Destroying s.main ∨ s.main = .over)
  have inv1 : ∀ s ev, ev ≠ .wrk .suicide → Inv e s → Inv e (step e s ev) := fun s ev hev i =>
    inv_run [ev] i (fun x hx => by rw [List.mem_singleton] at hx; subst hx; exact hev)
  have fl1 : ∀ s ev, ev ≠ .wrk .suicide → Inv e s → Flag s → Flag (step e s ev) := fun s ev hev i f =>
    flag_run [ev] i f (fun x hx => by rw [List.mem_singleton] at hx; subst hx; exact hev)
  -- one step of the destroying thread
  have main1 : ∀ s, P s → (Destroying (mainStep e s).main ∨ (mainStep e s).main = .over) ∧ pos s ≤ pos (mainStep e s) ∧
      (pos s < 2 ∨ (s.wrk = .gone ∧ pos s < 6) → pos s < pos (mainStep e s)) := by
    rintro s ⟨i, f, d | d⟩
    · obtain ⟨k, hm⟩ := d
      have h5 := (i.kill k false hm).1
      rcases k with _ | _ | _ | _ | _ | _ | k
      · exact ⟨Or.inl ⟨1, by simp [mainStep, hm]⟩, by simp [pos, mainStep, hm], fun _ => by simp [pos, mainStep, hm]⟩
      · exact ⟨Or.inl ⟨2, by simp [mainStep, hm]⟩, by simp [pos, mainStep, hm], fun _ => by simp [pos, mainStep, hm]⟩
      · have ht : s.thr = true := by
          have := i.held; rw [hm] at this
          simp only [held, Prod.mk.injEq] at this
          simpa using this.2.2.2
        by_cases hw : s.wrk = .gone
        · exact ⟨Or.inl ⟨3, by simp [mainStep, hm, ht, hw]⟩, by simp [pos, mainStep, hm, ht, hw],
            fun _ => by simp [pos, mainStep, hm, ht, hw]⟩
        · refine ⟨Or.inl ⟨2, by simp [mainStep, hm, ht, hw]⟩, by simp [pos, mainStep, hm, ht, hw], ?_⟩
          rintro (h | ⟨h, _⟩)
          · simp [pos, hm] at h
          · exact absurd h hw
      · exact ⟨Or.inl ⟨4, by simp [mainStep, hm]⟩, by simp [pos, mainStep, hm], fun _ => by simp [pos, mainStep, hm]⟩
      · exact ⟨Or.inl ⟨5, by simp [mainStep, hm]⟩, by simp [pos, mainStep, hm], fun _ => by simp [pos, mainStep, hm]⟩
      · exact ⟨Or.inr (by simp [mainStep, hm]), by simp [pos, mainStep, hm], fun _ => by simp [pos, mainStep, hm]⟩
      · omega
    · refine ⟨Or.inr (by simp [mainStep, d]), by simp [pos, mainStep, d], ?_⟩
      rintro (h | ⟨_, h⟩) <;> simp [pos, d] at h
  have pos_wrk : ∀ s c, pos (wrkStep e s c) = pos s := by
    intro s c; simp only [pos]; rw [wrk_main]
  have presP : ∀ s ev, ev ≠ .wrk .suicide → P s → P (step e s ev) := by
    intro s ev hev p
    refine ⟨inv1 s ev hev p.1, fl1 s ev hev p.1 p.2.1, ?_⟩
    cases ev with
    | main => exact (main1 s p).1
    | wrk c =>
      have : (step e s (.wrk c)).main = s.main := wrk_main e s c
      rw [this]; exact p.2.2
  have monoP : ∀ s ev, ev ≠ .wrk .suicide → P s → pos s ≤ pos (step e s ev) := by
    intro s ev _ p
    cases ev with
    | main => exact (main1 s p).2.1
    | wrk c => exact Nat.le_of_eq (pos_wrk s c).symm
  -- phase 1
  have r1 := progress (e := e) P pos (fun ev => decide (ev = .main)) 2 presP monoP
    (fun s ev _ p hs hlt => by
      have : ev = .main := by simpa using hs
      subst this
      exact (main1 s p).2.2 (Or.inl hlt)) evs1 s t1 ⟨i, fl, Or.inl h⟩ (by unfold turns at h1; omega)
  generalize hs1 : run e s evs1 = s1 at r1
  -- phase 2: the worker
  let P2 : St → Prop := fun s => P s ∧ 2 ≤ pos s
  let w : St → Nat := fun s => match s.wrk with
    | .start => 0
    | .buf => 1
    | .pop => 2
    | .loop => 3
    | .leave => 4
    | .drop => 5
    | .stop => 6
    | _ => 7
  have posted2 : ∀ s, P2 s → s.posted = true ∧ s.flag = true ∧ s.wrk ≠ .none := by
    rintro s ⟨⟨i, f, d⟩, hp⟩
    have hpost : s.posted = true := f.post (by
      rcases d with ⟨k, d⟩ | d
      · refine Or.inl ⟨k, false, d, ?_⟩
        simpa [pos, d] using hp
      · exact Or.inr d)
    refine ⟨hpost, i.posted hpost, ?_⟩
    intro hw
    have := i.work
    rcases d with ⟨k, d⟩ | d <;> rw [d, hw] at this <;> simp [working] at this
  have wrk1 : ∀ s c, c ≠ .suicide → P2 s → (s.wrk ≠ .gone → w s < w (wrkStep e s c)) ∧ w s ≤ w (wrkStep e s c) := by
    intro s c hc p
    obtain ⟨q1, q2, q3⟩ := posted2 s p
    suffices hsuf : s.wrk ≠ .gone → w s < w (wrkStep e s c) by
      refine ⟨hsuf, ?_⟩
      by_cases hg : s.wrk = .gone
      · simp [w, wrkStep, hg]
      · exact Nat.le_of_lt (hsuf hg)
    intro hg
    obtain ⟨hdl, sem, que, thr, buf, flag, posted, ub, main, wrk, trace⟩ := s
    simp only at q1 q2 q3 hg
    subst q1 q2
    cases wrk
    case none => exact absurd rfl q3
    case gone => exact absurd rfl hg
    case loop => simp [w, wrkStep, St.touch]
    case pop =>
      cases c with
      | grow ok => cases hf : e.fixed <;> cases ok <;> simp [w, wrkStep, popStep, hf, St.touch]
      | suicide => exact absurd rfl hc
      | msg ok => cases ok <;> simp [w, wrkStep, popStep, St.touch]
      | _ => simp [w, wrkStep, popStep, St.touch]
    case buf => cases h' : e.buf <;> simp [w, wrkStep, St.touch, h']
    case start => cases h' : e.fixed <;> simp [w, wrkStep, St.touch, h']
    all_goals simp [w, wrkStep, St.touch]
  have presP2 : ∀ s ev, ev ≠ .wrk .suicide → P2 s → P2 (step e s ev) := fun s ev hev p =>
    ⟨presP s ev hev p.1, Nat.le_trans p.2 (monoP s ev hev p.1)⟩
  have w7 : ∀ s, s.wrk ≠ .none → 7 ≤ w s → s.wrk = .gone := by
    intro s hn h
    cases hw : s.wrk <;> simp_all [w]
  have r2 := progress (e := e) P2 w (fun ev => decide (ev ≠ .main)) 7 presP2
    (fun s ev hev p => by
      cases ev with
      | main =>
        show w s ≤ w (mainStep e s)
        have : (mainStep e s).wrk = s.wrk := main_wrk p.1.1 (posted2 s p).2.2
        simp only [w, this]; exact Nat.le_refl _
      | wrk c => exact (wrk1 s c (fun h => hev (by rw [h])) p).2)
    (fun s ev hev p hs hlt => by
      cases ev with
      | main => simp at hs
      | wrk c =>
        refine (wrk1 s c (fun h => hev (by rw [h])) p).1 ?_
        intro hg; simp [w, hg] at hlt)
    evs2 s1 t2 ⟨r1.2, r1.1⟩ (by unfold works at h2; omega)
  generalize hs2 : run e s1 evs2 = s2 at r2
  -- phase 3
  let P3 : St → Prop := fun s => P2 s ∧ s.wrk = .gone
  have r3 := progress (e := e) P3 pos (fun ev => decide (ev = .main)) 6
    (fun s ev hev p => ⟨presP2 s ev hev p.1, by
      cases ev with
      | main => exact main_wrk_gone p.1.1.1 p.2
      | wrk c => simp only [step, wrkStep, p.2]⟩)
    (fun s ev hev p => monoP s ev hev p.1.1)
    (fun s ev _ p hs hlt => by
      have : ev = .main := by simpa using hs
      subst this
      exact (main1 s p.1.1).2.2 (Or.inr ⟨p.2, hlt⟩)) evs3 s2 t3
    ⟨r2.2, w7 s2 (posted2 s2 r2.2).2.2 r2.1⟩ (by have := r2.2.2; unfold turns at h3; omega)
  have e3 : run e s (evs1 ++ evs2 ++ evs3) = run e s2 evs3 := by
    simp only [run, List.foldl_append] at hs1 hs2 ⊢
    rw [hs1, hs2]
  rw [e3]
  have p3 := r3.2.1.1
  rcases p3.2.2 with ⟨k, d⟩ | d
  · have := (p3.1.kill k false d).1
    have h6 := r3.1
    simp [pos, d] at h6
    omega
  · exact d

/-! ## What goes wrong -/

/-- **a handler destroyed by its own message callback**: the join of the calling thread fails, everything is freed, and the
worker's next step uses the freed handler -/
theorem suicide_undefined (e : Env) (evs : List Ev) (h : (at_ e evs).wrk = .pop) (c : Choice) :
    (at_ e (evs ++ [.wrk .suicide, .wrk c])).ub = true := by
  have e1 : at_ e (evs ++ [.wrk .suicide, .wrk c]) = wrkStep e (wrkStep e (at_ e evs) .suicide) c := by
    simp [at_, run, List.foldl_append, step]
  rw [e1]
  have hw : (wrkStep e (at_ e evs) .suicide).wrk = .loop ∧ (wrkStep e (at_ e evs) .suicide).hdl = false := by
    simp only [wrkStep, h]
    cases hs : e.sem <;> cases hq : e.que <;> simp [popStep, killHdl, killQue, killSem, freeThr, hs, hq]
  generalize wrkStep e (at_ e evs) .suicide = s at hw
  simp only [wrkStep, hw.1]
  split <;> simp [St.touch, hw.2]

/-- **a worker that gets no buffer**: the handle is valid, yet no message is ever handled (msg_queue_handler only) -/
theorem no_buffer_no_messages (e : Env) (evs : List Ev) (t : Tame evs) (hf : e.fixed = false) (hb : e.buf = false) :
    Cb.msg ∉ (at_ e evs).trace := by
  have key : (at_ e evs).wrk ≠ .loop ∧ (at_ e evs).wrk ≠ .pop ∧ (at_ e evs).wrk ≠ .leave ∧ Cb.msg ∉ (at_ e evs).trace := by
    revert t
    induction evs using snocInd with
    | nil => intro _; simp [at_, run, St.init]
    | snoc l ev ih =>
      intro t
      have tl : Tame l := fun x hx => t x (List.mem_append_left _ hx)
      have i := inv_at (e := e) tl
      obtain ⟨h1, h2, h3, h4⟩ := ih tl
      have e1 : at_ e (l ++ [ev]) = step e (at_ e l) ev := by simp [at_, run, List.foldl_append]
      rw [e1]
      generalize at_ e l = s at i h1 h2 h3 h4
      cases ev with
      | main =>
        simp only [step]
        rw [main_trace]
        by_cases hn : s.wrk = .none
        · have : (mainStep e s).wrk = .none ∨ (mainStep e s).wrk = .start := by
            obtain ⟨hdl, sem, que, thr, buf, flag, posted, ub, main, wrk, trace⟩ := s
            simp only at hn
            subst hn
            cases main with
            | made ok => cases ok <;> simp [mainStep]
            | kill k c =>
              rcases k with _ | _ | _ | _ | _ | k
              · simp [mainStep, St.touch]
              · simp [mainStep, St.touch]
              · cases thr <;> simp [mainStep, St.touch]
              · cases h : e.sem <;> simp [mainStep, killSem, St.touch, h]
              · cases h : e.que <;> simp [mainStep, killQue, St.touch, h]
              · simp [mainStep, killHdl]
            | over => simp [mainStep]
            | args => cases h : e.args <;> simp [mainStep, h]
            | hdl => cases h : e.hdl <;> simp [mainStep, h]
            | sem => simp [mainStep, St.touch]
            | que => cases h : e.que <;> simp [mainStep, h, St.touch]
            | thr => cases h : e.thr <;> simp [mainStep, h, St.touch]
          rcases this with h | h <;> rw [h] <;> simp [h4]
        · rw [main_wrk i hn]; exact ⟨h1, h2, h3, h4⟩
      | wrk c =>
        simp only [step, wrkStep]
        cases hw : s.wrk <;> simp_all [St.touch]
  exact key.2.2.2

/-! ## The statements are not empty -/

def sane (fixed : Bool) : Env := ⟨fixed, true, true, true, true, true, true⟩

/-- a whole life: created, two messages, destroyed while a third is being handled -/
def life : List Ev :=
  List.replicate 5 .main ++ [.wrk .idle, .wrk .idle, .wrk .wake, .wrk (.msg true), .wrk .wake, .wrk (.grow true), .wrk .wake,
    .wrk (.msg true), .wrk .wake, .main, .main, .main, .wrk (.msg true)] ++
  List.replicate 5 (.wrk .idle) ++ List.replicate 4 .main

theorem example_life :
    (at_ (sane false) life).main = .over ∧
    (at_ (sane false) life).trace = [.ready, .msg, .msg, .msg, .stop] ∧ Tame life := by
  refine ⟨by decide +kernel, by decide +kernel, ?_⟩
  intro ev h
  have : ∀ ev ∈ life, ev ≠ .wrk .suicide := by decide +kernel
  exact this ev h

/-- the thread is refused: NULL, after the queue and the semaphore had been made -/
theorem example_refused :
    (at_ { sane true with thr := false } (List.replicate 12 .main)).main = .made false := by decide +kernel

/-- the semaphore is refused: a handle all the same -/
theorem example_no_semaphore :
    (at_ { sane true with sem := false } (List.replicate 5 .main)).main = .made true ∧
    (at_ { sane true with sem := false } (List.replicate 5 .main)).sem = false := by decide +kernel

/-- the situations of `destroy_returns`, `at_most_one_more` and `suicide_undefined` are reached -/
theorem example_destroying :
    (at_ (sane false) (life.take 17)).main = .kill 2 false ∧ (at_ (sane false) (life.take 17)).wrk = .pop ∧
    (at_ (sane false) (life.take 17)).flag = true := by decide +kernel

theorem example_open :
    (at_ (sane false) (life.take 8)).main = .made true ∧ (at_ (sane false) (life.take 8)).wrk = .pop := by decide +kernel

theorem example_no_buffer :
    (at_ { sane false with buf := false } (List.replicate 5 .main ++ List.replicate 3 (.wrk .idle))).main = .made true ∧
    (at_ { sane false with buf := false } (List.replicate 5 .main ++ List.replicate 3 (.wrk .idle))).trace = [.ready, .stop] := by
  decide +kernel

end Verif.HandlerLife
