import Verif.FixedHandler.Progress
/-!
# C52: the fixed-size message-queue handler
-/
namespace Verif.FixedHandler
open MsgQueue (Code)
open FixedSpsc (PushCall push pop)
open FixedSpsc.Spec (pushed popped)
open Spec (accepted inProgress messages NoWrap Asleep ClearCall Handled)
variable {one : BitVec 32}

theorem Inv.guard {s : Sys one} (h : Inv s) (hn : NoWrap s) : Guard s := by
  have hl := congrArg List.length h.acc
  rw [encAll_length, List.length_append] at hl
  unfold NoWrap messages at hn
  rw [List.length_append] at hn
  have : (pend s.prod).length ≤ (inProgress s.prod).length := by cases s.prod <;> simp [pend, inProgress]
  unfold Guard; omega

theorem Step.guard {e} {s t : Sys one} (st : Step e s t) (hg : Guard t) : Guard s := by
  cases st with
  | push_step _ _ _ _ _ e6 => unfold Guard at *; simp only [e6] at hg; exact hg
  | push_full => unfold Guard at *; simp only [pushed_full] at hg; exact hg
  | push_ok =>
    unfold Guard at *; simp only [FixedSpsc.pushed_true, List.length_append] at hg; omega
  | pop_step _ _ _ _ e5 => unfold Guard at *; simp only [e5] at hg; exact hg
  | _ => exact hg

theorem Steps.guard {ok : Ev → Prop} {s t : Sys one} (h : Steps ok s t) (hg : Guard t) : Guard s := by
  induction h with
  | refl => exact hg
  | step _ _ st ih => exact ih (st.guard hg)

/-- the counter while tokens have not wrapped -/
theorem Inv.counter_eq {s : Sys one} (h : Inv s) (hg : Guard s) :
    s.counter.toNat = (accepted s.results).length + counted s.prod := by
  have hl := congrArg List.length h.acc
  rw [encAll_length, List.length_append] at hl
  unfold Guard at hg
  have hn := h.num
  have : counted s.prod ≤ (pend s.prod).length := by cases s.prod <;> simp [pend, counted]
  rw [Nat.mod_eq_of_lt (by omega)] at hn
  exact hn

/-- **C52** (order, whole, at most once): while fewer than 2^64-1 messages were sent, the callback invocations are
messages which were accepted (or, at most one, is being pushed right now), each unchanged, in push order and each at
most once. -/
theorem delivered_in_order (h1 : 0 < one.toNat) {s : Sys one} (h : Reach s) (hn : NoWrap s) :
    s.delivered.Pairwise (fun x y => x.1 < y.1) ∧ ∀ k b, (k, b) ∈ s.delivered → (messages s)[k]? = some b := by
  have hI := h.inv h1
  obtain ⟨J, hJ, hS⟩ := hI.seq (hI.guard hn)
  refine ⟨?_, ?_⟩
  · have := hS.inc
    rw [List.pairwise_append] at this
    exact this.1
  · intro k b hm
    have hg := hS.get (k, b) (List.mem_append_left _ hm)
    have hs := hI.stream h1
    rw [hJ] at hs
    have hk := hS.fst_lt (List.mem_append_left _ hm)
    have hget : (encAll (messages s))[k]? = some (le 8 k ++ b) := by
      obtain ⟨T, hT⟩ := hs
      rw [← hT, List.append_assoc, List.getElem?_append_left hk]; exact hg
    obtain ⟨b', e1, e2⟩ := encAll_get hget
    rw [e1, List.append_cancel_left e2]

/-- **C52** (no lost wake-up): whenever the worker sleeps, every accepted message was handed to the callback or has a
number below `min_valid_token`. -/
theorem asleep_handled (h1 : 0 < one.toNat) {s : Sys one} (h : Reach s) (hn : NoWrap s) (ha : Asleep s) {k : Nat}
    (hk : k < (accepted s.results).length) : Handled s k ∨ k < s.minTok.toNat := by
  have hI := h.inv h1
  obtain ⟨hw, h0⟩ := ha
  obtain ⟨J, hJ, hS⟩ := hI.seq (hI.guard hn)
  have hc := hI.cnt (by simp [hw, Over])
  rw [hw] at hJ hS hc
  simp only [gotList, passedList, List.append_nil] at hJ hS
  have hl := congrArg List.length hI.acc
  rw [encAll_length, List.length_append] at hl
  rw [h0, hJ] at hc
  simp only [credit] at hc
  exact hS.all k (by omega)

theorem Step.minTok {e} {s t : Sys one} (st : Step e s t) (he : e ≠ .clr) : t.minTok = s.minTok ∧ t.clr = s.clr := by
  cases st <;> first | exact ⟨rfl, rfl⟩ | exact absurd rfl he

theorem Steps.minTok {s t : Sys one} (h : Steps (· ≠ .clr) s t) : t.minTok = s.minTok ∧ t.clr = s.clr := by
  induction h with
  | refl => exact ⟨rfl, rfl⟩
  | step _ he st ih => exact ⟨(st.minTok he).1.trans ih.1, (st.minTok he).2.trans ih.2⟩

/-- without a `clear`, `min_valid_token` is 0: see `drains` and `asleep_all` for what follows -/
theorem no_clear_minTok {i s : Sys one} (hi : Init i) (h : Steps (· ≠ .clr) i s) : s.minTok = 0#64 :=
  h.minTok.1.trans hi.2.2.2.2.1

/-- **C52** (without `clear` nothing is dropped): a sleeping worker has handled exactly the accepted messages. -/
theorem asleep_all (h1 : 0 < one.toNat) {i s : Sys one} (hi : Init i) (h : Steps (· ≠ .clr) i s) (hn : NoWrap s)
    (ha : Asleep s) {k : Nat} (hk : k < (accepted s.results).length) : Handled s k := by
  rcases asleep_handled h1 ⟨i, hi, h.widen⟩ hn ha hk with h' | h'
  · exact h'
  · rw [no_clear_minTok hi h] at h'; simp at h'

theorem Step.clr_load {s t : Sys one} (st : Step .clr s t) (h : s.clr = none) : t = { s with clr := some s.counter } := by
  cases st with
  | clear_load => rfl
  | clear_store e => rw [h] at e; simp at e

theorem Step.clr_store {s t : Sys one} {v} (st : Step .clr s t) (h : s.clr = some v) :
    t = { s with clr := none, minTok := v } := by
  cases st with
  | clear_load e => rw [h] at e; simp at e
  | clear_store e => rw [h] at e; simp only [Option.some.injEq] at e; rw [e]

/-- what a `clear` stores -/
theorem ClearCall.minTok {s t : Sys one} (h : ClearCall s t) : t.minTok = s.counter ∧ t.clr = none ∧
    Steps (fun _ => True) s t := by
  obtain ⟨s1, s2, h0, h1, h2, h3⟩ := h
  have e1 := h1.clr_load h0
  have e2 := h2.minTok.2
  rw [e1] at e2
  have e3 := h3.clr_store e2
  refine ⟨by rw [e3], by rw [e3], ?_⟩
  exact ((Steps.single (ok := fun _ => True) h1 trivial).trans h2.widen).step trivial h3

theorem minTok_mono (h1 : 0 < one.toNat) {ok : Ev → Prop} {s t : Sys one} (h : Steps ok s t) (hI : Inv s) (hg : Guard t) :
    s.minTok.toNat ≤ t.minTok.toNat := by
  induction h with
  | refl => exact Nat.le_refl _
  | @step t u e hp _ st ih =>
    have ih := ih (st.guard hg)
    have ho := (hp.inv h1 hI).ord (st.guard hg)
    cases st with
    | @clear_store _ v e => exact Nat.le_trans ih (ho.2 v e).1
    | _ => exact ih

/-- **C52** (`clear` drops): no message accepted before the call of `clear` reaches the callback after `clear` has
returned, except the one the worker had already decided to deliver. -/
theorem clear_drops (h1 : 0 < one.toNat) {s t u : Sys one} (h : Reach s) (hc : ClearCall s t)
    (hu : Steps (fun _ => True) t u) (hn : NoWrap u) {k : Nat} {b : List Byte} (hk : k < (accepted s.results).length)
    (hd : (k, b) ∈ u.delivered) : (k, b) ∈ t.delivered ∨ t.wrk = .passed k b := by
  have hI := h.inv h1
  have hcm := ClearCall.minTok hc
  have hIt := hcm.2.2.inv h1 hI
  have hgu := (hu.inv h1 hIt).guard hn
  have hv : (accepted s.results).length ≤ t.minTok.toNat := by
    rw [hcm.1, hI.counter_eq (hcm.2.2.guard (hu.guard hgu))]; omega
  suffices H : ∀ k b, k < (accepted s.results).length → (k, b) ∈ u.delivered ++ passedList u.wrk →
      (k, b) ∈ t.delivered ++ passedList t.wrk by
    have := H k b hk (List.mem_append_left _ hd)
    rcases List.mem_append.1 this with h | h
    · exact .inl h
    · right
      revert h
      cases t.wrk <;> simp [passedList]
      rintro rfl rfl; exact ⟨rfl, rfl⟩
  clear hd hk k b hn
  induction hu with
  | refl => exact fun _ _ _ h => h
  | @step w x e hp _ st ih =>
    intro k b hk hm
    have ih := ih (st.guard hgu) k b hk
    have hmono := minTok_mono h1 hp hIt (st.guard hgu)
    have hsame : x.delivered = w.delivered → passedList x.wrk = [] → (k, b) ∈ t.delivered ++ passedList t.wrk := by
      intro e1 e2
      rw [e1, e2, List.append_nil] at hm
      exact ih (List.mem_append_left _ hm)
    cases st with
    | @pass _ d e1 e2 =>
      simp only [passedList] at hm
      rcases List.mem_append.1 hm with h | h
      · exact ih (List.mem_append_left _ h)
      · simp only [List.mem_singleton, _root_.Prod.mk.injEq] at h
        omega
    | @enter _ k' b' e1 =>
      simp only [passedList, List.append_nil] at hm
      apply ih
      rw [e1]; exact hm
    | push_null => exact ih hm
    | push_call => exact ih hm
    | push_step => exact ih hm
    | push_full => exact ih hm
    | push_ok => exact ih hm
    | push_count => exact ih hm
    | push_post => exact ih hm
    | pop_step => exact ih hm
    | clear_load => exact ih hm
    | clear_store => exact ih hm
    | d_flag => exact ih hm
    | d_post => exact ih hm
    | d_join => exact ih hm
    | _ => exact hsame rfl rfl

/-- **C52** (`clear` keeps later messages): a message whose push began after `clear` was called is not dropped by it:
when the worker sleeps and no further `clear` was made, it has been handed over. -/
theorem clear_keeps (h1 : 0 < one.toNat) {s t u : Sys one} (h : Reach s) (hc : ClearCall s t)
    (hu : Steps (· ≠ .clr) t u) (hn : NoWrap u) (ha : Asleep u) {k : Nat} (hk : (messages s).length ≤ k)
    (hk' : k < (accepted u.results).length) : Handled u k := by
  have hI := h.inv h1
  have hcm := ClearCall.minTok hc
  have hIt := hcm.2.2.inv h1 hI
  have hgu := (hu.inv h1 hIt).guard hn
  have hr : Reach u := by
    obtain ⟨i, hi, hs⟩ := h
    exact ⟨i, hi, (hs.trans hcm.2.2).trans hu.widen⟩
  rcases asleep_handled h1 hr hn ha hk' with h' | h'
  · exact h'
  · exfalso
    rw [hu.minTok.1, hcm.1, hI.counter_eq (hcm.2.2.guard (hu.guard hgu))] at h'
    have : counted s.prod ≤ (inProgress s.prod).length := by cases s.prod <;> simp [counted, inProgress]
    unfold messages at hk
    rw [List.length_append] at hk
    omega

theorem Steps.noWrap {s t : Sys one} (h : t.results = s.results) (hp : t.prod = s.prod) (hn : NoWrap s) : NoWrap t := by
  unfold NoWrap messages at *; rw [h, hp]; exact hn

/-- **C52** (every accepted message is handled): from every reachable state of a handler that is not stopping, the
worker alone, its callbacks returning 0, gets to a state in which every accepted message was handed over, except those
`clear` invalidated. -/
theorem drains (h1 : 0 < one.toNat) {s : Sys one} (h : Reach s) (hn : NoWrap s) (hx : s.exit = false)
    (hl : s.wrk ≠ .leave) :
    ∃ t, Steps (fun e => e = .wrk) s t ∧ t.results = s.results ∧ t.minTok = s.minTok ∧
      ∀ k < (accepted s.results).length, Handled t k ∨ k < s.minTok.toNat := by
  obtain ⟨i, hi, hs⟩ := h
  have hI := hs.inv h1 (Inv.init hi)
  have ho : ¬ Over s.wrk := by
    rintro (h | h)
    · exact hl h
    · have := hI.fin h; rw [hx] at this; simp at this
  have widen : ∀ {t}, Steps Good s t → Reach t := fun ht => ⟨i, hi, hs.trans ht.widen⟩
  obtain ⟨t, k1, k2, k3⟩ := to_sleep h1 hI ho hx
  suffices H : ∀ n t, t.sem = n → Steps Good s t → t.exit = false → t.results = s.results → t.prod = s.prod →
      t.minTok = s.minTok → t.wrk = .top →
      ∃ u, Steps Good s u ∧ u.results = s.results ∧ u.minTok = s.minTok ∧
        ∀ k < (accepted s.results).length, Handled u k ∨ k < s.minTok.toNat from
    H _ t rfl k1 (k2.exit.trans hx) k2.results k2.prod k2.minTok k3
  intro n
  induction n with
  | zero =>
    intro t hn' ht _ hres hpr hmt hw
    refine ⟨t, ht, hres, hmt, ?_⟩
    rw [← hres, ← hmt]
    exact fun k hk => asleep_handled h1 (widen ht) (Steps.noWrap hres hpr hn) ⟨hw, hn'⟩ hk
  | succ n ih =>
    intro t hn' ht hex hres hpr hmt hw
    have h4 : Steps Good s { t with wrk := .check, sem := t.sem - 1 } := ht.step rfl (.wait hw (by omega))
    obtain ⟨u, k1, k2, k3⟩ := to_sleep h1 (h4.inv h1 hI) (by simp [Over]) hex
    refine ih u ?_ (h4.trans k1) (k2.exit.trans hex) (k2.results.trans hres) (k2.prod.trans hpr) (k2.minTok.trans hmt) k3
    rw [k2.sem]; simp only []; omega

/-- **C52** (stop): once the callback has returned non-zero or `destroy` was noticed, no message is handed over. -/
theorem stopped_delivers_nothing {s t : Sys one} (hs : s.wrk = .leave ∨ s.wrk = .gone)
    (h : Steps (fun _ => True) s t) : t.delivered = s.delivered ∧ (t.wrk = .leave ∨ t.wrk = .gone) := by
  induction h with
  | refl => exact ⟨rfl, hs⟩
  | @step t u e _ _ st ih =>
    obtain ⟨h1, h2⟩ := ih
    have hne : ∀ {x}, t.wrk = x → x ≠ .leave → x ≠ .gone → False := by
      intro x hx h3 h4
      rcases h2 with h2 | h2
      · exact h3 (hx.symm.trans h2)
      · exact h4 (hx.symm.trans h2)
    cases st with
    | leave e => exact ⟨h1, .inr rfl⟩
    | wait e => exact (hne e (by simp) (by simp)).elim
    | wait_spurious e => exact (hne e (by simp) (by simp)).elim
    | quit e => exact (hne e (by simp) (by simp)).elim
    | pop_call e => exact (hne e (by simp) (by simp)).elim
    | pop_step e => exact (hne e (by simp) (by simp)).elim
    | pop_none e => exact (hne e (by simp) (by simp)).elim
    | pop_some e => exact (hne e (by simp) (by simp)).elim
    | pass e => exact (hne e (by simp) (by simp)).elim
    | abandon e => exact (hne e (by simp) (by simp)).elim
    | enter e => exact (hne e (by simp) (by simp)).elim
    | cb_ok e => exact (hne e (by simp) (by simp)).elim
    | cb_stop e => exact (hne e (by simp) (by simp)).elim
    | _ => exact ⟨h1, h2⟩

theorem Steps.exit_mono {ok : Ev → Prop} {s t : Sys one} (h : Steps ok s t) (hx : s.exit = true) : t.exit = true := by
  induction h with
  | refl => exact hx
  | step _ _ st ih => cases st <;> first | exact ih | rfl

/-- **C52** (stop): once the worker has gone, every later push is refused with NULL_HANDLE. -/
theorem gone_refuses (h1 : 0 < one.toNat) {s t : Sys one} (h : Reach s) (hs : s.wrk = .gone) (hp : s.prod = .idle)
    (hst : Steps (fun _ => True) s t) :
    ∃ l, t.results = s.results ++ l ∧ ∀ x ∈ l, x.2 = .nullHandle := by
  have hI := h.inv h1
  suffices H : (∃ l, t.results = s.results ++ l ∧ ∀ x ∈ l, x.2 = .nullHandle) ∧ t.prod = .idle by exact H.1
  induction hst with
  | refl => exact ⟨⟨[], by simp, by simp⟩, hp⟩
  | @step t u e hpre _ st ih =>
    obtain ⟨⟨l, h1, h2⟩, h3⟩ := ih
    have hx : t.exit = true := hpre.exit_mono (hI.fin hs)
    cases st with
    | push_null m =>
      refine ⟨⟨l ++ [(m, .nullHandle)], by simp [h1], ?_⟩, h3⟩
      intro x hx'
      rcases List.mem_append.1 hx' with hx' | hx'
      · exact h2 x hx'
      · simp at hx'; rw [hx']
    | push_call m _ _ e => rw [hx] at e; simp at e
    | push_step e => rw [h3] at e; simp at e
    | push_full e => rw [h3] at e; simp at e
    | push_ok e => rw [h3] at e; simp at e
    | push_count e => rw [h3] at e; simp at e
    | push_post e => rw [h3] at e; simp at e
    | _ => exact ⟨⟨l, h1, h2⟩, h3⟩

/-- **C52**: pushes are refused with NULL_HANDLE only if the worker has stopped by itself or the handler is being
destroyed. -/
theorem refused_only_when_stopped (h1 : 0 < one.toNat) {s : Sys one} (h : Reach s) (hx : s.exit = true) :
    s.wrk = .gone ∨ s.dst ≠ .no := (h.inv h1).why hx

/-- **C52** (destroy returns): after `destroy` has posted the semaphore, the worker alone (callbacks returning 0) gets
to its end, so that the join returns. -/
theorem destroy_joins (h1 : 0 < one.toNat) {s : Sys one} (h : Reach s) (hd : s.dst = .posted) :
    ∃ t, Steps (fun e => e = .wrk) s t ∧ t.wrk = .gone := by
  have hI := h.inv h1
  have hx := (hI.dst (by simp [hd])).1
  have leave : ∀ t, Steps Good s t → t.wrk = .leave → ∃ t, Steps Good s t ∧ t.wrk = .gone :=
    fun t h1 h2 => ⟨_, h1.step rfl (.leave h2), rfl⟩
  have check : ∀ t, Steps Good s t → t.exit = true → t.wrk = .check → ∃ t, Steps Good s t ∧ t.wrk = .gone :=
    fun t h1 h2 h3 => leave _ (h1.step rfl (.quit h3 h2)) rfl
  have top : ∀ t, Steps Good s t ∧ Frame s t ∧ t.wrk = .top → ∃ t, Steps Good s t ∧ t.wrk = .gone := by
    rintro t ⟨k1, k2, k4⟩
    have := (k1.inv h1 hI).tok (k2.dst.trans hd)
    refine check _ (k1.step rfl (.wait k4 ?_)) (k2.exit.trans hx) rfl
    simpa [k4, Over] using this
  cases hw : s.wrk with
  | top => exact top s ⟨.refl s, Frame.refl s, hw⟩
  | check => exact check s (.refl s) hx hw
  | popping => obtain ⟨t, h⟩ := popping_top h1 hI hw; exact top t h
  | got d => obtain ⟨t, h⟩ := got_top (s := s) hw; exact top t h
  | passed k b =>
    exact top _ ⟨(Steps.single (ok := Good) (.enter hw) rfl).step rfl (.cb_ok rfl), ⟨rfl, rfl, rfl, rfl, rfl, rfl⟩, rfl⟩
  | handle => exact top _ ⟨.single (ok := Good) (.cb_ok hw) rfl, ⟨rfl, rfl, rfl, rfl, rfl, rfl⟩, rfl⟩
  | leave => exact leave s (.refl s) hw
  | gone => exact ⟨s, .refl s, hw⟩

/-! ### A concrete run -/

/-- moves of a concrete schedule (used only to exhibit reachable states) -/
inductive Act (one : BitVec 32) where
  | call (m : Msg one)
  | w (i : Nat)
  | pret
  | count
  | post
  | wait
  | pop
  | r (i : Nat)
  | rret
  | cmp
  | enter
  | cb
  | load
  | store

def exec (s : Sys one) : Act one → Option (Sys one)
  | .call m => match s.prod, s.dst, s.exit, s.conf.w with
    | .idle, .no, false, .idle =>
      some { s with prod := .pushing m,
                    conf := { s.conf with w := .run (cache s.counter m) (push one (cache s.counter m)) } }
    | _, _, _, _ => none
  | .w i => match s.prod, s.conf.w with
    | .pushing _, .run _ (.ret _) => none
    | .pushing _, .idle => none
    | .pushing _, _ => (Spsc.exec (push one) (pop one) s.conf (.w i)).map fun c => { s with conf := c }
    | _, _ => none
  | .pret => match s.prod, s.conf.w with
    | .pushing m, .run c (.ret true) =>
      some { s with prod := .counting m, conf := { s.conf with w := .idle, whist := s.conf.whist ++ [(c, true)] } }
    | _, _ => none
  | .count => match s.prod with
    | .counting m => some { s with prod := .posting m, counter := s.counter + 1#64 }
    | _ => none
  | .post => match s.prod with
    | .posting m => some { s with prod := .idle, sem := s.sem + 1, results := s.results ++ [(m, .success)] }
    | _ => none
  | .wait => if s.wrk = .top ∧ 0 < s.sem then some { s with wrk := .check, sem := s.sem - 1 } else none
  | .pop => match s.conf.r with
    | .idle => if s.wrk = .check ∧ s.exit = false then
        some { s with wrk := .popping, conf := { s.conf with r := .run () (pop one ()) } }
      else none
    | _ => none
  | .r i => if s.wrk = .popping then match s.conf.r with
      | .run _ (.ret _) => none
      | .idle => none
      | _ => (Spsc.exec (push one) (pop one) s.conf (.r i)).map fun c => { s with conf := c }
    else none
  | .rret => match s.conf.r with
    | .run c (.ret (some d)) => if s.wrk = .popping then
        some { s with wrk := .got d, conf := { s.conf with r := .idle, rhist := s.conf.rhist ++ [(c, some d)] } }
      else none
    | _ => none
  | .cmp => match s.wrk with
    | .got d => if s.minTok.toNat ≤ unle (d.take 8) then
        some { s with wrk := .passed (unle (d.take 8)) (d.drop 8) } else some { s with wrk := .top }
    | _ => none
  | .enter => match s.wrk with
    | .passed k b => some { s with wrk := .handle, delivered := s.delivered ++ [(k, b)] }
    | _ => none
  | .cb => if s.wrk = .handle then some { s with wrk := .top } else none
  | .load => match s.clr with
    | none => some { s with clr := some s.counter }
    | some _ => none
  | .store => match s.clr with
    | none => none
    | some v => some { s with clr := none, minTok := v }

theorem spsc_exec_w {s c : FixedSpsc.Conf one} {i : Nat} (h : Spsc.exec (push one) (pop one) s (.w i) = some c)
    (hr : ∀ x a, s.w ≠ .run x (.ret a)) : c.r = s.r ∧ c.rhist = s.rhist ∧ c.whist = s.whist := by
  simp only [Spsc.exec] at h
  repeat' split at h
  all_goals first
    | (exfalso; rename_i e; exact hr _ _ e)
    | (simp at h; subst h; exact ⟨rfl, rfl, rfl⟩)
    | (simp at h; rw [← h.2]; exact ⟨rfl, rfl, rfl⟩)
    | simp at h

theorem spsc_exec_r {s c : FixedSpsc.Conf one} {i : Nat} (h : Spsc.exec (push one) (pop one) s (.r i) = some c)
    (hr : ∀ x a, s.r ≠ .run x (.ret a)) : c.w = s.w ∧ c.whist = s.whist ∧ c.rhist = s.rhist := by
  simp only [Spsc.exec] at h
  repeat' split at h
  all_goals first
    | (exfalso; rename_i e; exact hr _ _ e)
    | (simp at h; subst h; exact ⟨rfl, rfl, rfl⟩)
    | simp at h

/-- the event of a move -/
def evOf : Act one → Ev
  | .call _ | .w _ | .pret | .count | .post => .prod
  | .load | .store => .clr
  | _ => .wrk

theorem exec_sound {s t : Sys one} {a : Act one} (h : exec s a = some t) : Step (evOf a) s t := by
  cases a with
  | call m =>
    simp only [exec] at h
    split at h
    · next e1 e2 e3 e4 => simp at h; subst h; exact .push_call m e1 e2 e3 e4
    · simp at h
  | w i =>
    simp only [exec] at h
    split at h
    · simp at h
    · simp at h
    · next m w e1 h1 h2 =>
      simp only [Option.map_eq_some_iff] at h
      obtain ⟨c, hc, rfl⟩ := h
      have hi : s.conf.w ≠ .idle := fun e => h2 e
      obtain ⟨k1, k2, k3⟩ := spsc_exec_w hc (fun x a e => h1 _ _ e)
      exact .push_step e1 hi (Spsc.exec_sound hc) k1 k2 k3
    · simp at h
  | pret =>
    simp only [exec] at h
    split at h
    · next e1 e2 => simp at h; subst h; exact .push_ok e1 e2
    · simp at h
  | count =>
    simp only [exec] at h
    split at h
    · next e1 => simp at h; subst h; exact .push_count e1
    · simp at h
  | post =>
    simp only [exec] at h
    split at h
    · next e1 => simp at h; subst h; exact .push_post e1
    · simp at h
  | wait =>
    simp only [exec] at h
    split at h
    · next e1 => simp at h; subst h; exact .wait e1.1 e1.2
    · simp at h
  | pop =>
    simp only [exec] at h
    split at h
    · next e1 =>
      split at h
      · next e2 => simp at h; subst h; exact .pop_call e2.1 e2.2 e1
      · simp at h
    · simp at h
  | r i =>
    simp only [exec] at h
    split at h
    · next e0 =>
      split at h
      · simp at h
      · simp at h
      · next h1 h2 =>
        simp only [Option.map_eq_some_iff] at h
        obtain ⟨c, hc, rfl⟩ := h
        have hi : s.conf.r ≠ .idle := fun e => h2 e
        obtain ⟨k1, k2, k3⟩ := spsc_exec_r hc (fun x a e => h1 _ _ e)
        exact .pop_step e0 hi (Spsc.exec_sound hc) k1 k2 k3
    · simp at h
  | rret =>
    simp only [exec] at h
    split at h
    · next e1 =>
      split at h
      · next e2 => simp at h; subst h; exact .pop_some e2 e1
      · simp at h
    · simp at h
  | cmp =>
    simp only [exec] at h
    split at h
    · next e1 =>
      split at h
      · next e2 => simp at h; subst h; exact .pass e1 e2
      · next e2 => simp at h; subst h; exact .abandon e1 e2
    · simp at h
  | enter =>
    simp only [exec] at h
    split at h
    · next e1 => simp at h; subst h; exact .enter e1
    · simp at h
  | cb =>
    simp only [exec] at h
    split at h
    · next e1 => simp at h; subst h; exact .cb_ok e1
    · simp at h
  | load =>
    simp only [exec] at h
    split at h
    · next e1 => simp at h; subst h; exact .clear_load e1
    · simp at h
  | store =>
    simp only [exec] at h
    split at h
    · simp at h
    · next e1 => simp at h; subst h; exact .clear_store e1

def execs (s : Sys one) : List (Act one) → Option (Sys one)
  | [] => some s
  | a :: as => (exec s a).bind fun s => execs s as

theorem execs_steps {ok : Ev → Prop} {s t : Sys one} {as : List (Act one)} (h : execs s as = some t)
    (hok : ∀ a ∈ as, ok (evOf a)) : Steps ok s t := by
  induction as generalizing s with
  | nil => simp [execs] at h; subst h; exact .refl s
  | cons a as ih =>
    simp only [execs, Option.bind_eq_some_iff] at h
    obtain ⟨u, h1, h2⟩ := h
    exact (Steps.single (exec_sound h1) (hok a (by simp))).trans (ih h2 fun x hx => hok x (by simp [hx]))

theorem execs_append {s : Sys one} {as bs : List (Act one)} :
    execs s (as ++ bs) = (execs s as).bind fun t => execs t bs := by
  induction as generalizing s with
  | nil => rfl
  | cons a as ih =>
    simp only [List.cons_append, execs]
    cases exec s a with
    | none => rfl
    | some u => simp [ih]

/-- `sizeof(fixed_msg_t)` = 1 -/
def demoMsg (b : Byte) : Msg 9#32 := ⟨[b], by simp⟩

def demoInit : Sys 9#32 :=
  ⟨⟨⟨0#32, 0#32, 32#32, List.replicate 32 0⟩, .idle, .idle, [], [], [], []⟩, 0, false, 0#64, 0#64, .idle, .top, none,
   .no, [], []⟩

theorem demoInit_init : Init demoInit :=
  ⟨⟨rfl, rfl, ⟨5, by decide, by decide, rfl⟩, by decide, rfl, rfl, rfl, rfl, rfl, rfl⟩,
    rfl, rfl, rfl, rfl, rfl, rfl, rfl, rfl, rfl, rfl⟩

def demoPush (b : Byte) : List (Act 9#32) :=
  [.call (demoMsg b), .w 0, .w 0] ++ (List.range 10).map .w ++ [.pret, .count, .post]
def demoPop : List (Act 9#32) := [.wait, .pop, .r 0, .r 0] ++ (List.range 10).map .r ++ [.rret, .cmp]

/-- Message 0 is pushed, `clear` runs completely, message 1 is pushed, the worker handles both; it sleeps having
delivered message 1 only: the hypotheses of all the theorems above are met. -/
example : ∃ s t u : Sys 9#32, Reach s ∧ ClearCall s t ∧ Steps (· ≠ .clr) t u ∧ NoWrap u ∧ Asleep u ∧
    (accepted s.results).length = 1 ∧ (messages s).length = 1 ∧ (accepted u.results).length = 2 ∧
    u.delivered = [(1, [8])] := by
  have h1 : (execs demoInit (demoPush 7)).isSome := by decide +kernel
  obtain ⟨s, hs⟩ := Option.isSome_iff_exists.1 h1
  have a1 : (execs demoInit (demoPush 7)).map
      (fun s => (s.clr, (accepted s.results).length, (messages s).length)) = some (none, 1, 1) := by decide +kernel
  rw [hs] at a1
  simp only [Option.map_some, Option.some.injEq, _root_.Prod.mk.injEq] at a1
  let s1 : Sys 9#32 := { s with clr := some s.counter }
  let t : Sys 9#32 := { s1 with clr := none, minTok := s.counter }
  have e1 : execs s [.load, .store] = some t := by
    simp [execs, exec, a1.1, t, s1]
  have a2 : (execs demoInit (demoPush 7 ++ ([.load, .store] ++ (demoPush 8 ++ demoPop ++ demoPop ++ [.enter, .cb])))).map
      (fun u => (decide (u.wrk = .top), (u.sem, (accepted u.results).length, (messages u).length), u.delivered)) =
      some (true, (0, 2, 2), [(1, [8])]) := by decide +kernel
  rw [execs_append, hs, Option.bind_some, execs_append, e1, Option.bind_some] at a2
  obtain ⟨u, hu, he⟩ := Option.map_eq_some_iff.1 a2
  simp only [_root_.Prod.mk.injEq] at he
  refine ⟨s, t, u, ⟨demoInit, demoInit_init, execs_steps hs (fun _ _ => trivial)⟩,
    ⟨s1, s1, a1.1, .clear_load a1.1, .refl _, .clear_store rfl⟩, execs_steps hu ?_, ?_,
    ⟨of_decide_eq_true he.1, he.2.1.1⟩, a1.2.1, a1.2.2, he.2.1.2.1, he.2.2⟩
  · intro a ha
    exact (by decide : ∀ e ∈ (demoPush 8 ++ demoPop ++ demoPop ++ [Act.enter, Act.cb]).map evOf, e ≠ Ev.clr) _
      (List.mem_map_of_mem ha)
  · unfold NoWrap; rw [he.2.1.2.2]; decide

end Verif.FixedHandler
