import Verif.MsgHandler.Lemmas
import Verif.Spsc.Progress
/-! The worker, running alone, gets through its loop. -/
namespace Verif.MsgHandler
open RingBuffer (availRead takeMin)
open MsgQueue (Code)
open MsgSpsc (PushCall PopRes push pop)
open MsgSpsc.Spec (pushed popped)
open Spsc (WLoc RLoc RProg)
open Spec (content accepted inProgress)

/-- only the worker moves, `malloc` succeeds and callbacks return 0 -/
abbrev Good (e : Ev) : Prop := e = .wrk

theorem rsafe : Spsc.RSafe push pop := fun _ h => (MsgSpsc.no_crash h).2.2

theorem Steps.trans {ok : Ev → Prop} {s t u : Sys} (h : Steps ok s t) (h' : Steps ok t u) : Steps ok s u := by
  induction h' with
  | refl => exact h
  | step _ a b ih => exact ih.step a b

theorem Steps.one {ok : Ev → Prop} {e s t} (h : Step e s t) (he : ok e) : Steps ok s t := .step (.refl s) he h

theorem spsc_size {s t : MsgSpsc.Conf} (h : Spsc.Step push pop s t) : t.ring.size = s.ring.size := by
  cases h <;> rfl

theorem Step.size {e : Ev} {s t : Sys} (h : Step e s t) : t.conf.ring.size = s.conf.ring.size := by
  cases h <;> first | rfl | (apply spsc_size; assumption)

theorem Steps.size {ok : Ev → Prop} {s t : Sys} (h : Steps ok s t) : t.conf.ring.size = s.conf.ring.size := by
  induction h with
  | refl => rfl
  | step _ _ st ih => rw [st.size, ih]

/-- what the worker does not touch until it leaves -/
structure Frame (s t : Sys) : Prop where
  sem : t.sem = s.sem
  exit : t.exit = s.exit
  prod : t.prod = s.prod
  dst : t.dst = s.dst
  results : t.results = s.results

theorem Frame.refl (s : Sys) : Frame s s := ⟨rfl, rfl, rfl, rfl, rfl⟩
theorem Frame.trans {s t u : Sys} (h : Frame s t) (h' : Frame t u) : Frame s u :=
  ⟨h'.1.trans h.1, h'.2.trans h.2, h'.3.trans h.3, h'.4.trans h.4, h'.5.trans h.5⟩

theorem lift_rsteps {s : Sys} {c : MsgSpsc.Conf} (h : Spsc.RSteps push pop s.conf c) (hp : s.wrk = .popping) :
    Steps Good s { s with conf := c } := by
  generalize e : s.conf = c0 at h
  induction h with
  | refl => rw [← e]; exact .refl s
  | step _ a b c d e ih => exact (ih).step rfl (.pop_step hp a b c d e)

/-- a message being refused for lack of room is small enough for `pri_roundup_power2` -/
theorem room_small {s : MsgSpsc.Conf} (h : MsgSpsc.Reach s) (hz : s.ring.size.toNat ≤ 2 ^ 30) {c a}
    (hr : s.r = .run c (.ret a)) (hc : a.code = .bufNotEnough) :
    ∃ n, roundup a.room.toNat = some n ∧ c.toNat < n := by
  obtain ⟨_, _, F, _, hr2, _, hm⟩ := h.inv2
  rcases hr2.inv_ret hr with ⟨h1, _⟩ | ⟨h1 | ⟨_, h2, m, h3, h4⟩, _⟩
  · rw [hc] at h1; simp at h1
  · rw [hc] at h1; simp at h1
  · have := hm m (h3.subset (by simp))
    obtain ⟨n, hn⟩ := roundup_some (n := a.room.toNat) (by omega) (by omega)
    have := roundup_le (by omega) hn
    rw [BitVec.lt_def] at h2
    exact ⟨n, hn, by omega⟩

/-- from inside a pop, the worker gets back to the top of its loop -/
theorem popping_top {s : Sys} (h : Inv s) (hz : s.conf.ring.size.toNat ≤ 2 ^ 30) (hp : s.wrk = .popping) :
    ∃ t, Steps Good s t ∧ Frame s t ∧ (t.wrk = .top .success ∨ t.wrk = .top .empty ∨
      (t.wrk = .top .bufNotEnough ∧ s.buf < t.buf)) := by
  have hrpc := h.rpc
  rw [hp] at hrpc
  obtain ⟨c, cc, a, h1, h2⟩ := Spsc.call_finishes rsafe h.reach hrpc.2
  have hl := lift_rsteps h1 hp
  have hI := hl.inv h
  have hz' : c.ring.size.toNat ≤ 2 ^ 30 := by have := hl.size; simp at this; rw [this]; exact hz
  have hcc : cc = BitVec.ofNat 32 s.buf := by
    have := hI.rpc; simp only [hp, h2] at this; simpa [RPc, rcallOf] using this.1
  have hbuf := h.buf (by simp [hp]) (by simp [hp, Over])
  obtain ⟨_, _, F, _, hr2, _⟩ := MsgSpsc.Reach.inv2 (h1.reach h.reach)
  rcases hr2.inv_ret h2 with ⟨e, _⟩ | ⟨e | ⟨e, _⟩, _⟩
  · refine ⟨_, (hl.step rfl (.pop_ok hp h2 e)).step rfl (.cb_ok rfl), ⟨rfl, rfl, rfl, rfl, rfl⟩, .inl rfl⟩
  · refine ⟨_, hl.step rfl (.pop_retry hp h2 (by rw [e]; simp) (by rw [e]; simp)), ⟨rfl, rfl, rfl, rfl, rfl⟩, ?_⟩
    rw [e]; exact .inr (.inl rfl)
  · obtain ⟨n, hn, hlt⟩ := room_small (h1.reach h.reach) hz' h2 e
    refine ⟨_, hl.step rfl (.pop_grow hp h2 e hn), ⟨rfl, rfl, rfl, rfl, rfl⟩, ?_⟩
    rw [e]
    refine .inr (.inr ⟨rfl, ?_⟩)
    rw [hcc] at hlt; simp at hlt; show s.buf < n; omega

/-- from the test of `flag2exit` (not set), the worker gets back to its semaphore -/
theorem check_sleep {s : Sys} (h : Inv s) (hz : s.conf.ring.size.toNat ≤ 2 ^ 30) (hp : s.wrk = .check)
    (hx : s.exit = false) :
    ∃ t, Steps Good s t ∧ Frame s t ∧ (t.wrk = .top .success ∨ t.wrk = .top .empty) := by
  generalize hd : 2 ^ 32 - s.buf = d
  induction d using Nat.strongRecOn generalizing s with
  | ind d ih =>
    have hi := h.rpc
    rw [hp] at hi
    have h0 : Steps Good s _ := .one (.pop_call hp hx hi) rfl
    obtain ⟨t, h1, h2, h3⟩ := popping_top (h0.inv h) hz rfl
    have hF : Frame s t := ⟨h2.1, h2.2, h2.3, h2.4, h2.5⟩
    rcases h3 with h3 | h3 | ⟨h3, h4⟩
    · exact ⟨t, h0.trans h1, hF, .inl h3⟩
    · exact ⟨t, h0.trans h1, hF, .inr h3⟩
    · have h5 : Steps Good s _ := (h0.trans h1).step rfl (.nowait h3 (by simp))
      have hbuf := ((h0.trans h1).inv h).buf (by simp [h3]) (by simp [h3, Over])
      simp only at h4
      obtain ⟨u, k1, k2, k3⟩ := ih (2 ^ 32 - t.buf) (by omega) (h5.inv h)
        (by have := h5.size; simp only at this; rw [this]; exact hz) rfl (by simp only [hF.exit, hx]) rfl
      exact ⟨u, h5.trans k1, hF.trans ⟨k2.1, k2.2, k2.3, k2.4, k2.5⟩, k3⟩

/-- from anywhere in the loop (and `flag2exit` not set) the worker gets to its semaphore -/
theorem to_sleep {s : Sys} (h : Inv s) (hz : s.conf.ring.size.toNat ≤ 2 ^ 30) (ho : ¬ Over s.wrk)
    (hx : s.exit = false) :
    ∃ t, Steps Good s t ∧ Frame s t ∧ (t.wrk = .top .success ∨ t.wrk = .top .empty) := by
  have fin : ∀ t, Steps Good s t → Frame s t → t.wrk = .check →
      ∃ t, Steps Good s t ∧ Frame s t ∧ (t.wrk = .top .success ∨ t.wrk = .top .empty) := by
    intro t h1 h2 h3
    obtain ⟨u, k1, k2, k3⟩ := check_sleep (h1.inv h) (by rw [h1.size]; exact hz) h3 (by rw [h2.exit, hx])
    exact ⟨u, h1.trans k1, h2.trans k2, k3⟩
  cases hw : s.wrk with
  | start => exact ⟨_, .one (.boot hw) rfl, ⟨rfl, rfl, rfl, rfl, rfl⟩, .inl rfl⟩
  | top last =>
    by_cases hl : last = .success ∨ last = .empty
    · refine ⟨s, .refl s, Frame.refl s, ?_⟩
      rcases hl with hl | hl
      · left; rw [hw, hl]
      · right; rw [hw, hl]
    · exact fin _ (.one (.nowait hw hl) rfl) ⟨rfl, rfl, rfl, rfl, rfl⟩ rfl
  | check => exact fin s (.refl s) (Frame.refl s) hw
  | popping =>
    obtain ⟨t, h1, h2, h3⟩ := popping_top h hz hw
    rcases h3 with h3 | h3 | ⟨h3, h4⟩
    · exact ⟨t, h1, h2, .inl h3⟩
    · exact ⟨t, h1, h2, .inr h3⟩
    · exact fin _ (h1.step rfl (.nowait h3 (by simp))) (h2.trans ⟨rfl, rfl, rfl, rfl, rfl⟩) rfl
  | handle m => exact ⟨_, .one (.cb_ok hw) rfl, ⟨rfl, rfl, rfl, rfl, rfl⟩, .inl rfl⟩
  | leave => exact absurd (.inl hw) ho
  | gone => exact absurd (.inr (.inl hw)) ho
  | ub => exact absurd (.inr (.inr hw)) ho

end Verif.MsgHandler
