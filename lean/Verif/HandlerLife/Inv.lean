import Verif.HandlerLife.Spec
/-!
# A queue handler's life: the invariant (C88)
-/
namespace Verif.HandlerLife

/-! ## The invariant -/

/-- the blocks held at each point of the creating and destroying thread: handler, semaphore, queue, thread -/
def held (e : Env) : Main → Bool × Bool × Bool × Bool
  | .args => (false, false, false, false)
  | .hdl => (false, false, false, false)
  | .sem => (true, false, false, false)
  | .que => (true, e.sem, false, false)
  | .thr => (true, e.sem, true, false)
  | .made ok => (ok, ok && e.sem, ok, ok)
  | .kill k c => (true, e.sem && decide (k ≤ 3), e.que && decide (k ≤ 4), !c && decide (k ≤ 2))
  | .over => (false, false, false, false)

/-- a worker exists -/
def working : Main → Bool
  | .made ok => ok
  | .kill _ c => !c
  | .over => true
  | _ => false

def joined : Main → Bool
  | .kill k c => !c && decide (3 ≤ k)
  | .over => true
  | _ => false

def flagged : Main → Bool
  | .kill k _ => decide (1 ≤ k)
  | .over => true
  | _ => false

def early : Main → Bool
  | .args => true
  | .hdl => true
  | .sem => true
  | .que => true
  | .thr => true
  | _ => false

structure Inv (e : Env) (s : St) : Prop where
  ub : s.ub = false
  held : (s.hdl, s.sem, s.que, s.thr) = held e s.main
  thr : s.main = .thr → e.que = true
  kill : ∀ k c, s.main = .kill k c → k ≤ 5 ∧ (c = false → e.que = true)
  made : s.main = .made true → e.que = true
  work : working s.main = decide (s.wrk ≠ .none)
  join : joined s.main = true → s.wrk = .gone
  flag : flagged s.main = true → s.flag = true
  early : early s.main = true → s.flag = false
  left : s.wrk = .drop ∨ s.wrk = .stop ∨ s.wrk = .gone → s.flag = true
  buf : s.buf = true → s.wrk = .loop ∨ s.wrk = .pop ∨ s.wrk = .leave ∨ s.wrk = .drop
  buf' : s.wrk = .loop ∨ s.wrk = .pop → e.fixed = true ∨ s.buf = true
  silent : s.wrk = .none ∨ s.wrk = .start → s.trace = []
  running : s.wrk ≠ .none → s.wrk ≠ .start → s.wrk ≠ .gone → ∃ n, s.trace = .ready :: List.replicate n .msg
  done : s.wrk = .gone → Complete s.trace
  posted : s.posted = true → s.flag = true

theorem inv_init (e : Env) : Inv e .init := by
  constructor <;> simp [St.init, held, working, joined, flagged, HandlerLife.early]

set_option linter.unusedSimpArgs false in
theorem inv_main {e : Env} {s : St} (i : Inv e s) : Inv e (mainStep e s) := by
  obtain ⟨hdl, sem, que, thr, buf, flag, posted, ub, main, wrk, trace⟩ := s
  obtain ⟨i1, i2, i3, i4, i5, i6, i7, i8, i9, i10, i11, i12, i13, i14, i15, i16⟩ := i
  simp only at i1 i2 i3 i4 i5 i6 i7 i8 i9 i10 i11 i12 i13 i14 i15 i16
  subst i1
  cases main with
  | over => exact ⟨rfl, i2, i3, i4, i5, i6, i7, i8, i9, i10, i11, i12, i13, i14, i15, i16⟩
  | made ok =>
    cases ok
    · exact ⟨rfl, i2, i3, i4, i5, i6, i7, i8, i9, i10, i11, i12, i13, i14, i15, i16⟩
    · simp only [held, Prod.mk.injEq, Bool.true_and] at i2
      obtain ⟨rfl, rfl, rfl, rfl⟩ := i2
      have hq := i5 rfl
      refine ⟨rfl, ?_, nofun, ?_, nofun, i6, nofun, nofun, nofun, i10, i11, i12, i13, i14, i15, i16⟩
      · simp [mainStep, held, hq]
      · simp only [mainStep, if_true, Main.kill.injEq]
        rintro k c ⟨rfl, rfl⟩
        exact ⟨by omega, fun _ => hq⟩
  | kill k c =>
    obtain ⟨hk, hc⟩ := i4 k c rfl
    simp only [held, Prod.mk.injEq] at i2
    obtain ⟨rfl, rfl, rfl, rfl⟩ := i2
    rcases k with _ | _ | _ | _ | _ | _ | k
    · refine ⟨rfl, ?_, nofun, ?_, nofun, i6, ?_, fun _ => rfl, nofun, fun _ => rfl, i11, i12, i13, i14, i15, fun _ => rfl⟩
      · simp [mainStep, held, St.touch]
      · simp only [mainStep, Main.kill.injEq]
        rintro k c ⟨rfl, rfl⟩
        exact ⟨by omega, hc⟩
      · simp [mainStep, joined]
    · have hf : flag = true := i8 rfl
      refine ⟨rfl, ?_, nofun, ?_, nofun, i6, ?_, fun _ => hf, nofun, i10, i11, i12, i13, i14, i15, fun _ => hf⟩
      · simp [mainStep, held, St.touch]
      · simp only [mainStep, Main.kill.injEq]
        rintro k c ⟨rfl, rfl⟩
        exact ⟨by omega, hc⟩
      · simp [mainStep, joined]
    · have hf : flag = true := i8 rfl
      cases c
      · by_cases hw : wrk = .gone
        · subst hw
          have e1 : mainStep e ⟨true, e.sem && decide (0 + 1 + 1 ≤ 3), e.que && decide (0 + 1 + 1 ≤ 4), !false && decide (0 + 1 + 1 ≤ 2), buf, flag, posted, false, .kill (0 + 1 + 1) false, .gone, trace⟩
            = ⟨true, e.sem, e.que, false, buf, flag, posted, false, .kill 3 false, .gone, trace⟩ := by
            simp [mainStep, freeThr, St.touch]
          rw [e1]
          refine ⟨rfl, ?_, nofun, ?_, nofun, i6, fun _ => rfl, fun _ => hf, nofun, i10, i11, i12, i13, i14, i15, fun _ => hf⟩
          · simp [held]
          · simp only [Main.kill.injEq]
            rintro k c ⟨rfl, rfl⟩
            exact ⟨by omega, hc⟩
        · have e1 : ∀ b3 b4 b5, mainStep e ⟨true, b3, b4, true, buf, flag, posted, b5, .kill 2 false, wrk, trace⟩
            = ⟨true, b3, b4, true, buf, flag, posted, b5, .kill 2 false, wrk, trace⟩ := by
            intro b3 b4 b5
            simp [mainStep, hw]
          have := e1 (e.sem && decide (2 ≤ 3)) (e.que && decide (2 ≤ 4)) false
          rw [show mainStep e ⟨true, e.sem && decide (0 + 1 + 1 ≤ 3), e.que && decide (0 + 1 + 1 ≤ 4), !false && decide (0 + 1 + 1 ≤ 2), buf, flag, posted, false, .kill (0 + 1 + 1) false, wrk, trace⟩ = _ from this]
          refine ⟨rfl, rfl, i3, i4, i5, i6, i7, i8, i9, i10, i11, i12, i13, i14, i15, i16⟩
      · refine ⟨?_, ?_, ?_, ?_, ?_, ?_, ?_, fun _ => hf, ?_, i10, i11, i12, i13, i14, i15, fun _ => hf⟩
        all_goals simp [mainStep, held, St.touch, joined, working, HandlerLife.early] at i6 ⊢
        · exact i6
    · have hf : flag = true := i8 rfl
      have e1 : ∀ b, mainStep e ⟨true, e.sem, e.que, b, buf, flag, posted, false, .kill 3 c, wrk, trace⟩
        = ⟨true, false, e.que, b, buf, flag, posted, false, .kill 4 c, wrk, trace⟩ := by
        intro b
        cases hs : e.sem <;> simp [mainStep, killSem, St.touch, hs]
      rw [show (e.sem && decide (0 + 1 + 1 + 1 ≤ 3)) = e.sem by simp, show (e.que && decide (0 + 1 + 1 + 1 ≤ 4)) = e.que by simp,
        show mainStep e ⟨true, e.sem, e.que, _, buf, flag, posted, false, .kill (0 + 1 + 1 + 1) c, wrk, trace⟩ = _ from e1 _]
      refine ⟨rfl, ?_, nofun, ?_, nofun, i6, i7, fun _ => hf, nofun, i10, i11, i12, i13, i14, i15, fun _ => hf⟩
      · simp [held]
      · simp only [Main.kill.injEq]
        rintro k c ⟨rfl, rfl⟩
        exact ⟨by omega, hc⟩
    · have hf : flag = true := i8 rfl
      have e1 : ∀ b d, mainStep e ⟨true, d, e.que, b, buf, flag, posted, false, .kill 4 c, wrk, trace⟩
        = ⟨true, d, false, b, buf, flag, posted, false, .kill 5 c, wrk, trace⟩ := by
        intro b d
        cases hs : e.que <;> simp [mainStep, killQue, St.touch, hs]
      rw [show (e.que && decide (0 + 1 + 1 + 1 + 1 ≤ 4)) = e.que by simp,
        show mainStep e ⟨true, _, e.que, _, buf, flag, posted, false, .kill (0 + 1 + 1 + 1 + 1) c, wrk, trace⟩ = _ from e1 _ _]
      refine ⟨rfl, ?_, nofun, ?_, nofun, i6, i7, fun _ => hf, nofun, i10, i11, i12, i13, i14, i15, fun _ => hf⟩
      · simp [held]
      · simp only [Main.kill.injEq]
        rintro k c ⟨rfl, rfl⟩
        exact ⟨by omega, hc⟩
    · have hf : flag = true := i8 rfl
      cases c
      · refine ⟨rfl, ?_, nofun, nofun, nofun, i6, i7, fun _ => hf, nofun, i10, i11, i12, i13, i14, i15, fun _ => hf⟩
        simp [mainStep, killHdl, held]
      · refine ⟨rfl, ?_, nofun, nofun, nofun, i6, i7, fun _ => hf, nofun, i10, i11, i12, i13, i14, i15, fun _ => hf⟩
        simp [mainStep, killHdl, held]
    · omega
  | args =>
    simp only [held, Prod.mk.injEq] at i2
    obtain ⟨rfl, rfl, rfl, rfl⟩ := i2
    cases ha : e.args <;> simp only [mainStep, ha, if_true, if_false] <;>
      refine ⟨rfl, rfl, nofun, nofun, nofun, i6, nofun, nofun, ?_, i10, i11, i12, i13, i14, i15, i16⟩
    · nofun
    · exact fun _ => i9 rfl
  | hdl =>
    simp only [held, Prod.mk.injEq] at i2
    obtain ⟨rfl, rfl, rfl, rfl⟩ := i2
    have hf : flag = false := i9 rfl
    subst hf
    cases ha : e.hdl <;> simp only [mainStep, ha, if_true, if_false] <;>
      refine ⟨rfl, rfl, nofun, nofun, nofun, i6, nofun, nofun, ?_, i10, i11, i12, i13, i14, i15, i16⟩
    · nofun
    · exact fun _ => rfl
  | sem =>
    simp only [held, Prod.mk.injEq] at i2
    obtain ⟨rfl, rfl, rfl, rfl⟩ := i2
    exact ⟨rfl, rfl, nofun, nofun, nofun, i6, nofun, nofun, fun _ => i9 rfl, i10, i11, i12, i13, i14, i15, i16⟩
  | que =>
    simp only [held, Prod.mk.injEq] at i2
    obtain ⟨rfl, rfl, rfl, rfl⟩ := i2
    cases ha : e.que <;> simp only [mainStep, ha, if_true, if_false]
    · refine ⟨rfl, ?_, nofun, ?_, nofun, i6, nofun, nofun, nofun, i10, i11, i12, i13, i14, i15, i16⟩
      · simp [held, ha, St.touch]
      · simp only [Bool.false_eq_true, if_false, Main.kill.injEq]
        rintro k c ⟨rfl, rfl⟩
        exact ⟨by omega, nofun⟩
    · exact ⟨rfl, rfl, fun _ => ha, nofun, nofun, i6, nofun, nofun, fun _ => i9 rfl, i10, i11, i12, i13, i14, i15, i16⟩
  | thr =>
    have hq := i3 rfl
    simp only [held, Prod.mk.injEq] at i2
    obtain ⟨rfl, rfl, rfl, rfl⟩ := i2
    have hw : wrk = .none := by simpa [working] using i6
    subst hw
    cases ha : e.thr <;> simp only [mainStep, ha, if_true, if_false]
    · refine ⟨rfl, ?_, nofun, ?_, nofun, i6, nofun, nofun, nofun, i10, i11, i12, i13, i14, i15, i16⟩
      · simp [held, hq, St.touch]
      · simp only [Bool.false_eq_true, if_false, Main.kill.injEq]
        rintro k c ⟨rfl, rfl⟩
        exact ⟨by omega, nofun⟩
    · refine ⟨rfl, ?_, nofun, nofun, fun _ => hq, rfl, nofun, nofun, nofun, nofun, ?_, nofun, fun _ => i13 (Or.inl rfl), ?_, nofun, i16⟩
      · simp [held, St.touch]
      · intro h
        have := i11 h
        simp at this
      · intro _ h
        exact absurd rfl h

set_option maxHeartbeats 4000000 in
set_option linter.unusedSimpArgs false in
theorem inv_wrk {e : Env} {s : St} (c : Choice) (hc : c ≠ .suicide) (i : Inv e s) : Inv e (wrkStep e s c) := by
  obtain ⟨hdl, sem, que, thr, buf, flag, posted, ub, main, wrk, trace⟩ := s
  have hm : wrk ≠ .none → wrk ≠ .gone → hdl = true ∧ sem = e.sem ∧ que = true ∧ HandlerLife.early main = false := by
    obtain ⟨i1, i2, i3, i4, i5, i6, i7, i8, i9, i10, i11, i12, i13, i14, i15, i16⟩ := i
    intro h1 h2
    cases main with
    | made ok => cases ok <;> simp_all [held, working, HandlerLife.early]
    | kill k c =>
      have := i4 k c rfl
      cases c <;> simp_all [held, working, joined, HandlerLife.early]
      omega
    | _ => simp_all [working, joined]
  obtain ⟨i1, i2, i3, i4, i5, i6, i7, i8, i9, i10, i11, i12, i13, i14, i15, i16⟩ := i
  have app : ∀ n, (Cb.ready :: List.replicate n Cb.msg) ++ [Cb.msg] = Cb.ready :: List.replicate (n + 1) Cb.msg := by
    intro n; rw [List.replicate_succ', List.cons_append]
  cases wrk
  case pop =>
    obtain ⟨n, hn⟩ := i14 (by simp) (by simp) (by simp)
    have hh := hm (by simp) (by simp)
    simp only at hn
    cases c with
    | msg ok =>
      cases hf : e.fixed <;> cases ok <;> constructor <;> simp_all [wrkStep, popStep, St.touch] <;> exact ⟨n + 1, rfl⟩
    | grow ok =>
      cases hf : e.fixed <;> cases ok <;> constructor <;> simp_all [wrkStep, popStep, St.touch]
    | suicide => exact absurd rfl hc
    | _ => cases hf : e.fixed <;> constructor <;> simp_all [wrkStep, popStep, St.touch]
  case stop =>
    obtain ⟨n, hn⟩ := i14 (by simp) (by simp) (by simp)
    have hh := hm (by simp) (by simp)
    simp only at hn
    constructor <;> simp_all [wrkStep, St.touch]
    exact ⟨n, by simp⟩
  case start =>
    have hh := hm (by simp) (by simp)
    have ht := i13 (Or.inr rfl)
    simp only at ht
    cases hf : e.fixed <;> constructor <;> simp_all [wrkStep, St.touch] <;> exact ⟨0, rfl⟩
  case loop =>
    have hh := hm (by simp) (by simp)
    by_cases hb : c = .idle ∧ posted = false
    · cases hs : e.sem <;> constructor <;> simp_all [wrkStep, St.touch]
    · have hb' : ¬ (c = .idle ∧ (!posted) = true) := by simpa using hb
      rw [show wrkStep e ⟨hdl, sem, que, thr, buf, flag, posted, ub, main, .loop, trace⟩ c = _ from if_neg hb']
      cases hs : e.sem <;> cases flag <;> constructor <;> simp_all [wrkStep, St.touch]
  case buf =>
    have hh := hm (by simp) (by simp)
    cases hf : e.buf <;> constructor <;> simp_all [wrkStep, St.touch]
  case leave =>
    have hh := hm (by simp) (by simp)
    constructor <;> simp_all [wrkStep, St.touch]
  case drop =>
    have hh := hm (by simp) (by simp)
    constructor <;> simp_all [wrkStep, St.touch]
  all_goals exact ⟨i1, i2, i3, i4, i5, i6, i7, i8, i9, i10, i11, i12, i13, i14, i15, i16⟩

theorem inv_run {e : Env} : ∀ (evs : List Ev) {s : St}, Inv e s → Tame evs → Inv e (run e s evs) := by
  intro evs
  induction evs with
  | nil => intro s i _; exact i
  | cons ev evs ih =>
    intro s i t
    refine ih (s := step e s ev) ?_ (fun x hx => t x (List.mem_cons_of_mem _ hx))
    cases ev with
    | main => exact inv_main i
    | wrk c => exact inv_wrk c (fun h => t _ (List.mem_cons_self ..) (by rw [h])) i

theorem inv_at {e : Env} {evs : List Ev} (t : Tame evs) : Inv e (at_ e evs) := inv_run evs (inv_init e) t

end Verif.HandlerLife
