import Verif.MsgHandler.Progress
/-!
# C51: the message-queue handler
-/
namespace Verif.MsgHandler
open MsgQueue (Code)
open MsgSpsc (PushCall PopRes push pop)
open MsgSpsc.Spec (pushed popped)
open Spec (content accepted inProgress Asleep)

theorem Steps.widen {ok : Ev → Prop} {s t : Sys} (h : Steps ok s t) : Steps (fun _ => True) s t := by
  induction h with
  | refl => exact .refl _
  | step _ _ st ih => exact ih.step trivial st

theorem Steps.exit_mono {ok : Ev → Prop} {s t : Sys} (h : Steps ok s t) (hx : s.exit = true) : t.exit = true := by
  induction h with
  | refl => exact hx
  | step _ _ st ih => cases st <;> first | exact ih | rfl

/-- **C51** (exactly once, in order, whole): in every reachable state the sequence of callback invocations is a prefix
of the messages whose push returned success, in push order, followed by at most the one being pushed right now. -/
theorem delivered_in_order {s : Sys} (h : Reach s) : s.delivered <+: accepted s.results ++ inProgress s.prod := by
  have hI := h.inv
  have := MsgSpsc.no_tearing hI.reach
  rw [hI.acc, ← hI.del] at this
  have hw := hI.wpc
  cases hp : s.prod with
  | idle =>
    rw [hp] at hw this
    rw [show s.conf.w = .idle from hw] at this
    simpa [posting, MsgSpsc.Spec.inFlight, inProgress] using this
  | pushing m =>
    rw [hp] at hw this
    have e : MsgSpsc.Spec.inFlight s.conf.w = [content m] := by
      obtain ⟨h1, _⟩ := hw
      revert h1
      cases s.conf.w with
      | run c p => intro h1; simp [callOf] at h1; rw [h1]; rfl
      | copy c _ _ _ _ _ => intro h1; simp [callOf] at h1; rw [h1]; rfl
      | idle => intro h1; simp [callOf] at h1
      | ub => intro h1; simp [callOf] at h1
      | aborted => intro h1; simp [callOf] at h1
    rw [e] at this
    simpa [posting, inProgress] using this
  | posting m =>
    rw [hp] at hw this
    rw [show s.conf.w = .idle from hw] at this
    simpa [posting, MsgSpsc.Spec.inFlight, inProgress] using this

/-- **C51** (no lost wake-up): whenever the worker sleeps on its semaphore, every accepted message has already been
handed to the callback, even if `sem_wait` is sometimes interrupted. -/
theorem no_lost_wakeup {s : Sys} (h : Reach s) (hs : Asleep s) : accepted s.results <+: s.delivered := by
  have hI := h.inv
  obtain ⟨hw, h0⟩ := hs
  have hno : ¬ Over s.wrk := by rcases hw with hw | hw <;> simp [hw, Over]
  have hc := hI.cnt hno
  have hcr : credit s.conf.r s.wrk = 0 := by rcases hw with hw | hw <;> simp [hw, credit]
  rw [hcr, h0, hI.acc, ← hI.del, List.length_append] at hc
  have hp : (posting s.prod).length = postCount s.prod := by cases s.prod <;> rfl
  have h1 : accepted s.results <+: accepted s.results ++ inProgress s.prod := List.prefix_append _ _
  exact List.prefix_of_prefix_length_le h1 (delivered_in_order h) (by omega)

/-- **C51**: a sleeping worker and no push in progress means that exactly the accepted messages were handled. -/
theorem asleep_all_delivered {s : Sys} (h : Reach s) (hs : Asleep s) (hp : s.prod = .idle) :
    s.delivered = accepted s.results := by
  have h1 := no_lost_wakeup h hs
  have h2 := delivered_in_order h
  rw [hp, inProgress, List.append_nil] at h2
  exact h2.eq_of_length_le h1.length_le

/-- the queue is small enough for the worker's buffer arithmetic (`2 << counter` as an `int`) -/
abbrev Sized (s : Sys) : Prop := s.conf.ring.size.toNat ≤ 2 ^ 30

/-- **C51** (every accepted message is handled): from every reachable state of a handler that is not stopping, the
worker alone, its callbacks returning 0 and its allocations succeeding, gets to a state in which every accepted
message has been handed to the callback, whatever the message sizes. -/
theorem drains {s : Sys} (h : Reach s) (hz : Sized s) (hx : s.exit = false) (hl : s.wrk ≠ .leave) (hu : s.wrk ≠ .ub) :
    ∃ t, Steps (fun e => e = .wrk) s t ∧ t.results = s.results ∧ accepted s.results <+: t.delivered := by
  obtain ⟨i, hi, hs⟩ := h
  have hI := hs.inv (Inv.init hi)
  have ho : ¬ Over s.wrk := by
    rintro (h | h | h)
    · exact hl h
    · have := hI.fin h; rw [hx] at this; simp at this
    · exact hu h
  have widen : ∀ {t}, Steps Good s t → Reach t := by
    intro t ht
    exact ⟨i, hi, hs.trans ht.widen⟩
  obtain ⟨t, h1, h2, h3⟩ := to_sleep hI hz ho hx
  suffices H : ∀ n t, t.sem = n → Steps Good s t → t.exit = false → t.results = s.results →
      (t.wrk = .top .success ∨ t.wrk = .top .empty) →
      ∃ u, Steps Good s u ∧ u.results = s.results ∧ accepted s.results <+: u.delivered from
    H _ t rfl h1 (h2.exit.trans hx) h2.results h3
  intro n
  induction n with
  | zero =>
    intro t hn ht _ hres hw
    refine ⟨t, ht, hres, ?_⟩
    rw [← hres]
    exact no_lost_wakeup (widen ht) ⟨hw, hn⟩
  | succ n ih =>
    intro t hn ht hex hres hw
    have h4 : Steps Good s { t with wrk := .check, sem := t.sem - 1 } := by
      rcases hw with hw | hw
      · exact ht.step rfl (.wait hw (.inl rfl) (by omega))
      · exact ht.step rfl (.wait hw (.inr rfl) (by omega))
    obtain ⟨u, k1, k2, k3⟩ := check_sleep (h4.inv hI) (by rw [h4.size]; exact hz) rfl hex
    refine ih u ?_ (h4.trans k1) (k2.exit.trans hex) (k2.results.trans hres) k3
    rw [k2.sem]; simp only []; omega

/-- **C51** (stop): once the callback has returned non-zero, `malloc` has failed or `destroy` was noticed, no message
is handed over any more. -/
theorem stopped_delivers_nothing {s t : Sys} (hs : s.wrk = .leave ∨ s.wrk = .gone)
    (h : Steps (fun _ => True) s t) : t.delivered = s.delivered ∧ (t.wrk = .leave ∨ t.wrk = .gone) := by
  induction h with
  | refl => exact ⟨rfl, hs⟩
  | @step t u e _ _ st ih =>
    obtain ⟨h1, h2⟩ := ih
    have hne : ∀ {x}, t.wrk = x → x ≠ .leave → x ≠ .gone → False := by
      intro x hx h3 h4
      rcases h2 with h2 | h2
      · exact h3 (hx.symm.trans h2)
      · exact h4 (hx.symm.trans h2)
    cases st with
    | push_null m => exact ⟨h1, h2⟩
    | push_call m => exact ⟨h1, h2⟩
    | push_step => exact ⟨h1, h2⟩
    | push_fail => exact ⟨h1, h2⟩
    | push_ok => exact ⟨h1, h2⟩
    | push_post => exact ⟨h1, h2⟩
    | boot e => exact (hne e (by simp) (by simp)).elim
    | boot_oom e => exact (hne e (by simp) (by simp)).elim
    | wait e => exact (hne e (by simp) (by simp)).elim
    | wait_spurious e => exact (hne e (by simp) (by simp)).elim
    | nowait e => exact (hne e (by simp) (by simp)).elim
    | quit e => exact (hne e (by simp) (by simp)).elim
    | pop_call e => exact (hne e (by simp) (by simp)).elim
    | pop_step e => exact (hne e (by simp) (by simp)).elim
    | pop_ok e => exact (hne e (by simp) (by simp)).elim
    | pop_grow e => exact (hne e (by simp) (by simp)).elim
    | pop_grow_oom e => exact (hne e (by simp) (by simp)).elim
    | pop_grow_ub e => exact (hne e (by simp) (by simp)).elim
    | pop_retry e => exact (hne e (by simp) (by simp)).elim
    | cb_ok e => exact (hne e (by simp) (by simp)).elim
    | cb_stop e => exact (hne e (by simp) (by simp)).elim
    | leave e => exact ⟨h1, .inr rfl⟩
    | d_flag => exact ⟨h1, h2⟩
    | d_post => exact ⟨h1, h2⟩
    | d_join => exact ⟨h1, h2⟩

/-- **C51** (stop): once the worker has gone, every later push is refused with NULL_HANDLE. -/
theorem gone_refuses {s t : Sys} (h : Reach s) (hs : s.wrk = .gone) (hp : s.prod = .idle)
    (hst : Steps (fun _ => True) s t) :
    ∃ l, t.results = s.results ++ l ∧ ∀ x ∈ l, x.2 = .nullHandle := by
  have hI := h.inv
  suffices H : (∃ l, t.results = s.results ++ l ∧ ∀ x ∈ l, x.2 = .nullHandle) ∧ t.prod = .idle by exact H.1
  induction hst with
  | refl => exact ⟨⟨[], by simp, by simp⟩, hp⟩
  | @step t u e hpre _ st ih =>
    obtain ⟨⟨l, h1, h2⟩, h3⟩ := ih
    have hIt := hpre.inv hI
    have hx : t.exit = true := hpre.exit_mono (hI.fin hs)
    cases st with
    | push_null m =>
      refine ⟨⟨l ++ [(m, .nullHandle)], by simp [h1], ?_⟩, h3⟩
      intro x hx'
      rcases List.mem_append.1 hx' with hx' | hx'
      · exact h2 x hx'
      · simp at hx'; rw [hx']
    | push_call m _ _ e => rw [hx] at e; simp at e
    | push_step e => rw [h3] at e; simp at e
    | push_fail e => rw [h3] at e; simp at e
    | push_ok e => rw [h3] at e; simp at e
    | push_post e => rw [h3] at e; simp at e
    | boot e => exact ⟨⟨l, h1, h2⟩, h3⟩
    | boot_oom e => exact ⟨⟨l, h1, h2⟩, h3⟩
    | wait e => exact ⟨⟨l, h1, h2⟩, h3⟩
    | wait_spurious e => exact ⟨⟨l, h1, h2⟩, h3⟩
    | nowait e => exact ⟨⟨l, h1, h2⟩, h3⟩
    | quit e => exact ⟨⟨l, h1, h2⟩, h3⟩
    | pop_call e => exact ⟨⟨l, h1, h2⟩, h3⟩
    | pop_step e => exact ⟨⟨l, h1, h2⟩, h3⟩
    | pop_ok e => exact ⟨⟨l, h1, h2⟩, h3⟩
    | pop_grow e => exact ⟨⟨l, h1, h2⟩, h3⟩
    | pop_grow_oom e => exact ⟨⟨l, h1, h2⟩, h3⟩
    | pop_grow_ub e => exact ⟨⟨l, h1, h2⟩, h3⟩
    | pop_retry e => exact ⟨⟨l, h1, h2⟩, h3⟩
    | cb_ok e => exact ⟨⟨l, h1, h2⟩, h3⟩
    | cb_stop e => exact ⟨⟨l, h1, h2⟩, h3⟩
    | leave e => exact ⟨⟨l, h1, h2⟩, h3⟩
    | d_flag => exact ⟨⟨l, h1, h2⟩, h3⟩
    | d_post => exact ⟨⟨l, h1, h2⟩, h3⟩
    | d_join => exact ⟨⟨l, h1, h2⟩, h3⟩

/-- **C51**: a push is refused with NULL_HANDLE by the handler only if the worker has stopped by itself or the handler
is being destroyed. -/
theorem refused_only_when_stopped {s : Sys} (h : Reach s) (hx : s.exit = true) : s.wrk = .gone ∨ s.dst ≠ .no :=
  h.inv.why hx

/-- **C51** (destroy returns): after `destroy` has posted the semaphore, the worker alone (callbacks returning 0) gets
to its end, so that the join returns. -/
theorem destroy_joins {s : Sys} (h : Reach s) (hz : Sized s) (hd : s.dst = .posted) (hu : s.wrk ≠ .ub) :
    ∃ t, Steps (fun e => e = .wrk) s t ∧ t.wrk = .gone := by
  have hI := h.inv
  have hx := (hI.dst (by simp [hd])).1
  have leave : ∀ t, Steps Good s t → t.wrk = .leave → ∃ t, Steps Good s t ∧ t.wrk = .gone :=
    fun t h1 h2 => ⟨_, h1.step rfl (.leave h2), rfl⟩
  have check : ∀ t, Steps Good s t → t.exit = true → t.wrk = .check → ∃ t, Steps Good s t ∧ t.wrk = .gone :=
    fun t h1 h2 h3 => leave _ (h1.step rfl (.quit h3 h2)) rfl
  have top : ∀ t last, Steps Good s t → t.exit = true → t.dst = .posted → t.wrk = .top last →
      ∃ t, Steps Good s t ∧ t.wrk = .gone := by
    intro t last h1 h2 h3 h4
    by_cases hl : last = .success ∨ last = .empty
    · have := (h1.inv hI).tok h3
      refine check _ (h1.step rfl (.wait h4 hl ?_)) h2 rfl
      simpa [h4, Over] using this
    · exact check _ (h1.step rfl (.nowait h4 hl)) h2 rfl
  cases hw : s.wrk with
  | start => exact top _ _ (.one (.boot hw) rfl) hx hd rfl
  | top last => exact top s last (.refl s) hx hd hw
  | check => exact check s (.refl s) hx hw
  | popping =>
    obtain ⟨t, h1, h2, h3⟩ := popping_top hI hz hw
    have e1 := h2.exit.trans hx
    have e2 := h2.dst.trans hd
    rcases h3 with h3 | h3 | ⟨h3, _⟩
    · exact top t _ h1 e1 e2 h3
    · exact top t _ h1 e1 e2 h3
    · exact top t _ h1 e1 e2 h3
  | handle m => exact top _ _ (.one (.cb_ok hw) rfl) hx hd rfl
  | leave => exact leave s (.refl s) hw
  | gone => exact ⟨s, .refl s, hw⟩
  | ub => exact absurd hw hu

/-- **C51**: on a queue of at most 2^30 bytes the worker never executes the undefined shift. -/
theorem no_undefined_shift {s : Sys} (h : Reach s) (hz : Sized s) : s.wrk ≠ .ub := by
  obtain ⟨i, hi, hs⟩ := h
  have hI0 := Inv.init hi
  induction hs with
  | refl => rw [hi.2.2.2.2.1]; simp
  | @step t u e hpre _ st ih =>
    have hsz := st.size
    have hz' : Sized t := by unfold Sized at *; rw [← hsz]; exact hz
    have ih := ih hz'
    have hI := hpre.inv hI0
    cases st with
    | pop_grow_ub e1 e2 e3 e4 =>
      obtain ⟨n, hn, _⟩ := room_small hI.reach hz' e2 e3
      rw [e4] at hn; simp at hn
    | _ => first | exact ih | simp

/-- **C51** (memory): a message handed to the callback fits in the worker's buffer, and `pri_roundup_power2` never
returns less than its argument. -/
theorem message_fits {s : Sys} (h : Reach s) {m : List Byte} (hw : s.wrk = .handle m) : m.length ≤ s.buf :=
  h.inv.fit m hw

theorem roundup_sufficient {n r : Nat} (hn : 0 < n) (h : roundup n = some r) : n ≤ r := roundup_le hn h

/-- ... and what it returns is the smallest power of two that is enough. -/
theorem roundup_smallest {n r : Nat} (hn : 0 < n) (h : roundup n = some r) :
    (∃ k, r = 2 ^ k) ∧ ∀ k, n ≤ 2 ^ k → r ≤ 2 ^ k := by
  have hb := shiftCount_bounds n hn
  unfold roundup at h
  split at h
  · rename_i hne
    split at h
    · simp only [Option.some.injEq] at h
      subst h
      refine ⟨⟨shiftCount n + 1, by rw [Nat.pow_succ]; omega⟩, fun k hk => ?_⟩
      have : shiftCount n < k := by
        rcases Nat.lt_or_ge (shiftCount n) k with h | h
        · exact h
        · exfalso
          have h1 : 2 ^ k ≤ 2 ^ shiftCount n := Nat.pow_le_pow_right (by omega) h
          have : n = 2 ^ shiftCount n := by omega
          rw [this] at hne
          exact hne (by rw [Nat.and_two_pow_sub_one_eq_mod]; simp)
      calc 2 * 2 ^ shiftCount n = 2 ^ (shiftCount n + 1) := by rw [Nat.pow_succ]; omega
        _ ≤ 2 ^ k := Nat.pow_le_pow_right (by omega) this
    · cases h
  · rename_i he
    simp only [Option.some.injEq] at h
    subst h
    refine ⟨?_, fun k hk => hk⟩
    have he' : n &&& (n - 1) = 0 := by simpa using he
    rcases Nat.lt_or_ge (2 ^ shiftCount n) n with hlt | hge
    · exfalso
      -- the top bit is in both
      have t1 : n.testBit (shiftCount n) = true := by
        rw [Nat.testBit_eq_decide_div_mod_eq]
        have : n / 2 ^ shiftCount n = 1 := by
          apply Nat.div_eq_of_lt_le <;> omega
        simp [this]
      have t2 : (n - 1).testBit (shiftCount n) = true := by
        rw [Nat.testBit_eq_decide_div_mod_eq]
        have : (n - 1) / 2 ^ shiftCount n = 1 := by
          apply Nat.div_eq_of_lt_le <;> omega
        simp [this]
      have : (n &&& (n - 1)).testBit (shiftCount n) = true := by rw [Nat.testBit_and, t1, t2]; rfl
      rw [he'] at this
      simp at this
    · exact ⟨shiftCount n, by omega⟩

/-! ### A concrete run -/

/-- moves of a concrete schedule (used only to exhibit reachable states) -/
inductive Act where
  | call (m : Msg)
  | w (i : Nat)
  | pret
  | post
  | boot
  | wait
  | pop
  | r (i : Nat)
  | rret
  | cb

def exec (s : Sys) : Act → Option Sys
  | .call m => match s.prod, s.dst, s.exit, s.conf.w with
    | .idle, .no, false, .idle =>
      some { s with prod := .pushing m, conf := { s.conf with w := .run m.call (push m.call) } }
    | _, _, _, _ => none
  | .w i => match s.prod, s.conf.w with
    | .pushing _, .run _ (.ret _) => none
    | .pushing _, .idle => none
    | .pushing _, _ => (Spsc.exec push pop s.conf (.w i)).map fun c => { s with conf := c }
    | _, _ => none
  | .pret => match s.prod, s.conf.w with
    | .pushing m, .run c (.ret .success) =>
      some { s with prod := .posting m, conf := { s.conf with w := .idle, whist := s.conf.whist ++ [(c, .success)] } }
    | _, _ => none
  | .post => match s.prod with
    | .posting m => some { s with prod := .idle, sem := s.sem + 1, results := s.results ++ [(m, .success)] }
    | _ => none
  | .boot => if s.wrk = .start then some { s with wrk := .top .success, buf := 4096 } else none
  | .wait => if (s.wrk = .top .success ∨ s.wrk = .top .empty) ∧ 0 < s.sem then
      some { s with wrk := .check, sem := s.sem - 1 } else none
  | .pop => match s.conf.r with
    | .idle => if s.wrk = .check ∧ s.exit = false then
        some { s with wrk := .popping,
                      conf := { s.conf with r := .run (BitVec.ofNat 32 s.buf) (pop (BitVec.ofNat 32 s.buf)) } }
      else none
    | _ => none
  | .r i => if s.wrk = .popping then match s.conf.r with
      | .run _ (.ret _) => none
      | .idle => none
      | _ => (Spsc.exec push pop s.conf (.r i)).map fun c => { s with conf := c }
    else none
  | .rret => match s.conf.r with
    | .run c (.ret a) => if s.wrk = .popping ∧ a.code = .success then
        some { s with wrk := .handle a.data, delivered := s.delivered ++ [a.data],
                      conf := { s.conf with r := .idle, rhist := s.conf.rhist ++ [(c, a)] } }
      else none
    | _ => none
  | .cb => match s.wrk with
    | .handle _ => some { s with wrk := .top .success }
    | _ => none

theorem spsc_exec_w {s c : MsgSpsc.Conf} {i : Nat} (h : Spsc.exec push pop s (.w i) = some c)
    (hr : ∀ x a, s.w ≠ .run x (.ret a)) : c.r = s.r ∧ c.rhist = s.rhist ∧ c.whist = s.whist := by
  simp only [Spsc.exec] at h
  repeat' split at h
  all_goals first
    | (exfalso; rename_i e; exact hr _ _ e)
    | (simp at h; subst h; exact ⟨rfl, rfl, rfl⟩)
    | (simp at h; rw [← h.2]; exact ⟨rfl, rfl, rfl⟩)
    | simp at h

theorem spsc_exec_r {s c : MsgSpsc.Conf} {i : Nat} (h : Spsc.exec push pop s (.r i) = some c)
    (hr : ∀ x a, s.r ≠ .run x (.ret a)) : c.w = s.w ∧ c.whist = s.whist ∧ c.rhist = s.rhist := by
  simp only [Spsc.exec] at h
  repeat' split at h
  all_goals first
    | (exfalso; rename_i e; exact hr _ _ e)
    | (simp at h; subst h; exact ⟨rfl, rfl, rfl⟩)
    | simp at h

/-- whose move it is -/
def Act.ev : Act → Ev
  | .call _ | .w _ | .pret | .post => .prod
  | _ => .wrk

theorem exec_sound {s t : Sys} {a : Act} (h : exec s a = some t) : Step a.ev s t := by
  cases a with
  | call m =>
    simp only [exec] at h
    split at h
    · next e1 e2 e3 e4 => simp at h; subst h; exact .push_call m e1 e2 e3 e4
    · simp at h
  | w i =>
    simp only [exec] at h
    split at h
    · simp at h
    · simp at h
    · next m w e1 h1 h2 =>
      simp only [Option.map_eq_some_iff] at h
      obtain ⟨c, hc, rfl⟩ := h
      have hi : s.conf.w ≠ .idle := fun e => h2 e
      obtain ⟨k1, k2, k3⟩ := spsc_exec_w hc (fun x a e => h1 _ _ e)
      exact .push_step e1 hi (Spsc.exec_sound hc) k1 k2 k3
    · simp at h
  | pret =>
    simp only [exec] at h
    split at h
    · next e1 e2 => simp at h; subst h; exact .push_ok e1 e2 rfl
    · simp at h
  | post =>
    simp only [exec] at h
    split at h
    · next e1 => simp at h; subst h; exact .push_post e1
    · simp at h
  | boot =>
    simp only [exec] at h
    split at h
    · next e1 => simp at h; subst h; exact .boot e1
    · simp at h
  | wait =>
    simp only [exec] at h
    split at h
    · next e1 =>
      simp at h; subst h
      rcases e1 with ⟨e1 | e1, e2⟩
      · exact .wait e1 (.inl rfl) e2
      · exact .wait e1 (.inr rfl) e2
    · simp at h
  | pop =>
    simp only [exec] at h
    split at h
    · next e1 =>
      split at h
      · next e2 => simp at h; subst h; exact .pop_call e2.1 e2.2 e1
      · simp at h
    · simp at h
  | r i =>
    simp only [exec] at h
    split at h
    · next e0 =>
      split at h
      · simp at h
      · simp at h
      · next h1 h2 =>
        simp only [Option.map_eq_some_iff] at h
        obtain ⟨c, hc, rfl⟩ := h
        have hi : s.conf.r ≠ .idle := fun e => h2 e
        obtain ⟨k1, k2, k3⟩ := spsc_exec_r hc (fun x a e => h1 _ _ e)
        exact .pop_step e0 hi (Spsc.exec_sound hc) k1 k2 k3
    · simp at h
  | rret =>
    simp only [exec] at h
    split at h
    · next e1 =>
      split at h
      · next e2 => simp at h; subst h; exact .pop_ok e2.1 e1 e2.2
      · simp at h
    · simp at h
  | cb =>
    simp only [exec] at h
    split at h
    · next e1 => simp at h; subst h; exact .cb_ok e1
    · simp at h

def execs (s : Sys) : List Act → Option Sys
  | [] => some s
  | a :: as => (exec s a).bind fun s => execs s as

theorem execs_reach {s t : Sys} {as : List Act} (hs : Reach s) (h : execs s as = some t) : Reach t := by
  induction as generalizing s with
  | nil => simp [execs] at h; subst h; exact hs
  | cons a as ih =>
    simp only [execs, Option.bind_eq_some_iff] at h
    obtain ⟨u, h1, h2⟩ := h
    have st := exec_sound h1
    obtain ⟨i, hi, hp⟩ := hs
    exact ih ⟨i, hi, hp.step trivial st⟩ h2

/-- `{ .what = 1, .arg1 = 2, .arg2 = 3, .obj_len = 1 }` followed by the byte 9 -/
def demoMsg : Msg := ⟨[1, 0, 0, 0, 2, 0, 0, 0, 3, 0, 0, 0, 1, 0, 0, 0, 9], by decide, by decide⟩

def demoInit : Sys :=
  ⟨⟨⟨0#32, 0#32, 32#32, List.replicate 32 0⟩, .idle, .idle, [], [], [], []⟩, 0, false, .idle, .start, 0, .no, [], []⟩

theorem demoInit_reach : Reach demoInit :=
  ⟨demoInit, ⟨⟨rfl, rfl, ⟨5, by decide, by decide, rfl⟩, by decide, rfl, rfl, rfl, rfl, rfl, rfl⟩,
    rfl, rfl, rfl, rfl, rfl, rfl, rfl⟩, .refl _⟩

/-- one whole push: space check, header, body, return, post -/
def demoPush : List Act :=
  [.call demoMsg, .w 0, .w 0, .w 0, .w 1, .w 2, .w 3, .w 4, .w 0] ++ (List.range 18).map .w ++ [.pret, .post]
/-- one whole worker iteration -/
def demoPop : List Act :=
  [.wait, .pop, .r 0, .r 0, .r 0, .r 1, .r 2, .r 3, .r 4, .r 0, .r 0, .r 0] ++ (List.range 18).map .r ++ [.rret]

/-- Reachable: the callback runs with the pushed message; the hypotheses of `message_fits` and `drains` are met. -/
example : ∃ s, Reach s ∧ s.wrk = .handle demoMsg.obj ∧ s.delivered = [demoMsg.obj] ∧
    accepted s.results = [demoMsg.obj] ∧ s.exit = false := by
  have h : (execs demoInit (demoPush ++ .boot :: demoPop)).map
      (fun s => (s.wrk, s.delivered, accepted s.results, s.exit)) =
      some (.handle demoMsg.obj, [demoMsg.obj], [demoMsg.obj], false) := by decide +kernel
  obtain ⟨s, hs, he⟩ := Option.map_eq_some_iff.1 h
  simp only [_root_.Prod.mk.injEq] at he
  exact ⟨s, execs_reach demoInit_reach hs, he.1, he.2.1, he.2.2.1, he.2.2.2⟩

/-- Reachable: the worker sleeps after having handled the message. -/
example : ∃ s, Reach s ∧ Asleep s ∧ s.prod = .idle ∧ s.delivered = [demoMsg.obj] := by
  have h : (execs demoInit (demoPush ++ .boot :: demoPop ++ [.cb])).map
      (fun s => (s.wrk, s.sem, s.delivered, match s.prod with | .idle => true | _ => false)) =
      some (.top .success, 0, [demoMsg.obj], true) := by decide +kernel
  obtain ⟨s, hs, he⟩ := Option.map_eq_some_iff.1 h
  simp only [_root_.Prod.mk.injEq] at he
  refine ⟨s, execs_reach demoInit_reach hs, ⟨.inl he.1, he.2.1⟩, ?_, he.2.2.1⟩
  have := he.2.2.2
  split at this
  · assumption
  · simp at this

end Verif.MsgHandler
