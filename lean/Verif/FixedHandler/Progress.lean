import Verif.FixedHandler.Invariant
import Verif.Spsc.Progress
/-! The worker, running alone, gets through its loop. -/
namespace Verif.FixedHandler
open MsgQueue (Code)
open FixedSpsc (PushCall push pop)
open FixedSpsc.Spec (pushed popped)
open Spec (accepted inProgress messages NoWrap)
variable {one : BitVec 32}

/-- only the worker moves and callbacks return 0 -/
abbrev Good (e : Ev) : Prop := e = .wrk

theorem rsafe (h1 : 0 < one.toNat) : Spsc.RSafe (push one) (pop one) := fun _ h => (FixedSpsc.no_crash h1 h).2.2

theorem Steps.trans {ok : Ev → Prop} {s t u : Sys one} (h : Steps ok s t) (h' : Steps ok t u) : Steps ok s u := by
  induction h' with
  | refl => exact h
  | step _ a b ih => exact ih.step a b

theorem Steps.single {ok : Ev → Prop} {e} {s t : Sys one} (h : Step e s t) (he : ok e) : Steps ok s t := .step (.refl s) he h

theorem Steps.widen {ok : Ev → Prop} {s t : Sys one} (h : Steps ok s t) : Steps (fun _ => True) s t := by
  induction h with
  | refl => exact .refl _
  | step _ _ st ih => exact ih.step trivial st

/-- what the worker does not touch until it leaves -/
structure Frame (s t : Sys one) : Prop where
  sem : t.sem = s.sem
  exit : t.exit = s.exit
  prod : t.prod = s.prod
  dst : t.dst = s.dst
  results : t.results = s.results
  minTok : t.minTok = s.minTok

theorem Frame.refl (s : Sys one) : Frame s s := ⟨rfl, rfl, rfl, rfl, rfl, rfl⟩
theorem Frame.trans {s t u : Sys one} (h : Frame s t) (h' : Frame t u) : Frame s u :=
  ⟨h'.1.trans h.1, h'.2.trans h.2, h'.3.trans h.3, h'.4.trans h.4, h'.5.trans h.5, h'.6.trans h.6⟩

theorem lift_rsteps {s : Sys one} {c : FixedSpsc.Conf one} (h : Spsc.RSteps (push one) (pop one) s.conf c)
    (hp : s.wrk = .popping) : Steps Good s { s with conf := c } := by
  generalize e : s.conf = c0 at h
  induction h with
  | refl => rw [← e]; exact .refl s
  | step _ a b c d e ih => exact (ih).step rfl (.pop_step hp a b c d e)

/-- after a pop the worker gets back to its semaphore -/
theorem got_top {s : Sys one} {d} (hp : s.wrk = .got d) :
    ∃ t, Steps Good s t ∧ Frame s t ∧ t.wrk = .top := by
  by_cases hm : s.minTok.toNat ≤ unle (d.take 8)
  · exact ⟨_, (((Steps.single (ok := Good) (.pass hp hm) rfl).step rfl (.enter rfl)).step rfl (.cb_ok rfl)), ⟨rfl, rfl, rfl, rfl, rfl, rfl⟩, rfl⟩
  · exact ⟨_, Steps.single (ok := Good) (.abandon hp hm) rfl, ⟨rfl, rfl, rfl, rfl, rfl, rfl⟩, rfl⟩

/-- from inside a pop, the worker gets back to its semaphore -/
theorem popping_top (h1 : 0 < one.toNat) {s : Sys one} (h : Inv s) (hp : s.wrk = .popping) :
    ∃ t, Steps Good s t ∧ Frame s t ∧ t.wrk = .top := by
  have hrpc := h.rpc
  rw [hp] at hrpc
  obtain ⟨c, cc, a, k1, k2⟩ := Spsc.call_finishes (rsafe h1) h.reach hrpc
  have hl := lift_rsteps k1 hp
  cases a with
  | none => exact ⟨_, hl.step rfl (.pop_none hp k2), ⟨rfl, rfl, rfl, rfl, rfl, rfl⟩, rfl⟩
  | some d =>
    have h3 := hl.step (ok := Good) rfl (.pop_some hp k2)
    generalize hg : ({ s with wrk := .got d, conf := { c with r := .idle, rhist := c.rhist ++ [(cc, some d)] } } : Sys one) = g at h3
    have hF : Frame s g := by subst hg; exact ⟨rfl, rfl, rfl, rfl, rfl, rfl⟩
    obtain ⟨t, h4, h5, h6⟩ := got_top (s := g) (d := d) (by subst hg; rfl)
    exact ⟨t, h3.trans h4, hF.trans h5, h6⟩

/-- from anywhere in the loop (and `flag2exit` not set) the worker gets to its semaphore -/
theorem to_sleep (h1 : 0 < one.toNat) {s : Sys one} (h : Inv s) (ho : ¬ Over s.wrk) (hx : s.exit = false) :
    ∃ t, Steps Good s t ∧ Frame s t ∧ t.wrk = .top := by
  cases hw : s.wrk with
  | top => exact ⟨s, .refl s, Frame.refl s, hw⟩
  | check =>
    have hi := h.rpc
    rw [hw] at hi
    have h0 : Steps Good s _ := .single (.pop_call hw hx hi) rfl
    obtain ⟨t, h2, h3, h4⟩ := popping_top h1 (h0.inv h1 h) rfl
    exact ⟨t, h0.trans h2, ⟨h3.1, h3.2, h3.3, h3.4, h3.5, h3.6⟩, h4⟩
  | popping => exact popping_top h1 h hw
  | got d => exact got_top hw
  | passed k b => exact ⟨_, (Steps.single (ok := Good) (.enter hw) rfl).step rfl (.cb_ok rfl), ⟨rfl, rfl, rfl, rfl, rfl, rfl⟩, rfl⟩
  | handle => exact ⟨_, .single (ok := Good) (.cb_ok hw) rfl, ⟨rfl, rfl, rfl, rfl, rfl, rfl⟩, rfl⟩
  | leave => exact absurd (.inl hw) ho
  | gone => exact absurd (.inr hw) ho

end Verif.FixedHandler
