import Verif.Tso.Props
import Verif.FixedSpsc.Props
/-! Invariant of the two-thread fixed-size message queue under total store order. -/
namespace Verif.FixedTso
open RingBuffer (Ring availRead availWrite takeMin)
open Spsc (WProg RProg WLoc RLoc WDone)
open Spsc.Spec (sent consumed)
open FixedSpsc
open FixedSpsc.Spec (pushed popped inFlight)

variable {one : BitVec 32}

/-- the two-thread system with store buffers -/
abbrev Conf (one : BitVec 32) := Tso.Conf (PushCall one) Bool Unit (Option (List Byte))
/-- states reachable by any interleaving of any pushes, pops and drains; `pso` as in `Verif.Tso` -/
abbrev Reach (pso : Bool) (one : BitVec 32) : Conf one → Prop := Tso.Reach pso (push one) (pop one)

def Inv2 (s : Conf one) (PM IM : Nat) : Prop :=
  ∃ F, WPhase one s.mem.size.toNat (pushed s.whist) (sent s.wlog) PM s.w F ∧
    RPhase one (popped s.rhist) F (consumed s.rlog) s.r ∧ popped s.rhist <+: F ∧ (∀ m ∈ F, m.length = one.toNat) ∧
    ∀ c t pk len k, s.r = .run c (.read t pk len k) → consumed s.rlog + one.toNat ≤ IM

theorem Inv2.mono {s : Conf one} {PM IM PM' IM' : Nat} (h : Inv2 s PM IM) (h1 : PM ≤ PM') (h2 : IM ≤ IM') :
    Inv2 s PM' IM' := by
  obtain ⟨F, hw, hr, hq, hm, hv⟩ := h
  exact ⟨F, hw.mono h1, hr, hq, hm, fun c t pk len k e => Nat.le_trans (hv c t pk len k e) h2⟩

set_option maxHeartbeats 1000000 in
theorem Inv2.step (h1 : 0 < one.toNat) {s t : Conf one} {PM IM : Nat} (h : Inv2 s PM IM) (iv : Tso.Inv s PM IM)
    (st : Tso.Step false (push one) (pop one) s t) : ∃ PM' IM', Tso.Inv t PM' IM' ∧ Inv2 t PM' IM' := by
  have key : Inv2 t PM IM → ∃ PM' IM', Tso.Inv t PM' IM' ∧ Inv2 t PM' IM' := by
    intro h2
    obtain ⟨PM', IM', iv', a, b, _⟩ := iv.step push_valid st
    exact ⟨PM', IM', iv', h2.mono a b⟩
  apply key
  obtain ⟨PM', IM', iv', _, _, _⟩ := iv.step push_valid st
  obtain ⟨F, hw, hr, hq, hm, hv⟩ := h
  have hle := iv.le
  have hfit := iv.fit
  have hpm := iv.rq.le
  have him := iv.inle
  have hvis := iv.vis
  have hS := hw.sent_eq
  cases st with
  | wcall c e =>
    obtain ⟨rfl, hS⟩ := hw.inv_idle e
    exact ⟨_, .start c hS, hr, hq, hm, hv⟩
  | @wret c a e =>
    rcases hw.inv_ret e with ⟨rfl, e2⟩ | ⟨rfl, e2⟩
    · refine ⟨F, ?_, hr, hq, hm, hv⟩
      simp only [pushed_true]
      rw [← e2]; exact .idle hS
    · subst e2
      refine ⟨_, ?_, hr, hq, hm, hv⟩
      simp only [pushed_false]
      exact .idle hS
  | wabort e => exact (hw.inv_abort e).elim
  | @wavail c k e =>
    obtain ⟨rfl, e2, rfl⟩ := hw.inv_avail e
    refine ⟨_, ?_, hr, hq, hm, hv⟩
    simp only [pushAvailK]
    split
    · exact .fail c e2
    · next hc =>
      rw [div_zero, iv.availWrite] at hc
      exact .wr c e2 (by omega)
  | @wskip c src len k e hc =>
    obtain ⟨rfl, rfl, rfl, e4, e5, e6⟩ := hw.inv_write e
    exfalso
    rcases hc with hc | hc
    · rw [hc] at h1; simp at h1
    · have := congrArg BitVec.toNat hc
      rw [iv.availWrite] at this
      simp at this; omega
  | @wbegin c src len k e hc =>
    obtain ⟨rfl, rfl, rfl, rfl, e5, e6⟩ := hw.inv_write e
    refine ⟨_, ?_, hr, hq, hm, hv⟩
    have hlen : len.toNat ≤ (availWrite s.wview).toNat := by rw [iv.availWrite]; omega
    simp only [takeMin_eq hlen]
    exact .wrCopy c [] e5 e6
  | @wcopy c src len k n done i b e hi hb hst =>
    obtain ⟨rfl, rfl, rfl, rfl, rfl, e5, e6⟩ := hw.inv_copy e
    exact ⟨_, .wrCopy c _ e5 e6, hr, hq, hm, hv⟩
  | wub i e hi hb => obtain ⟨_, _, hf⟩ := iv'.w; exact hf.elim
  | @wpub c src len k n done e hd =>
    obtain ⟨rfl, rfl, rfl, rfl, rfl, e5, e6⟩ := hw.inv_copy e
    refine ⟨pushed s.whist ++ [c.bytes], ?_, hr.mono (List.prefix_append _ _), hq.trans (List.prefix_append _ _), ?_, hv⟩
    · have : pushK n n = .ret true := by simp [pushK]
      simp only [this, Spsc.sent_append, Spsc.sent_single]
      refine .ok c ?_
      rw [e5, List.flatten_append]; simp [PushCall.bytes]
    · intro m hmm
      rcases List.mem_append.1 hmm with h | h
      · exact hm m h
      · simp at h; rw [h, bytes_length]
  | rcall c e => exact ⟨F, hw, .start c (hr.inv_idle e), hq, hm, by simp [pop]⟩
  | @rret c a e =>
    rcases hr.inv_ret e with ⟨rfl, e2⟩ | ⟨d, rfl, e2, e3⟩
    · refine ⟨F, hw, ?_, ?_, hm, by simp⟩
      · simp only [popped_none]; exact .idle e2
      · simp only [popped_none]; exact hq
    · refine ⟨F, hw, ?_, ?_, hm, by simp⟩
      · simp only [popped_some]; exact .idle (by rw [e2]; simp)
      · simp only [popped_some]; exact e3
  | rabort e => exact (hr.inv_abort e).elim
  | @ravail c k e =>
    obtain ⟨e1, rfl⟩ := hr.inv_avail e
    simp only [popAvailK]
    split
    · exact ⟨F, hw, .fail c e1, hq, hm, by simp⟩
    · next hc =>
      rw [div_zero, iv.availRead] at hc
      obtain ⟨m, hm'⟩ := next_exists hm h1 hq (by rw [← hS]; omega)
      exact ⟨F, hw, .rd c m e1 hm', hq, hm, fun _ _ _ _ _ _ => by simp only; omega⟩
  | @rskip c t pk len k e hc =>
    obtain ⟨rfl, rfl, rfl, rfl, e5, m, e6⟩ := hr.inv_read e
    exfalso
    rcases hc with hc | hc
    · rw [hc] at h1; simp at h1
    · have := congrArg BitVec.toNat hc
      have := hv _ _ _ _ _ e
      rw [iv.availRead] at *
      simp at *; omega
  | @rbegin c t pk len k e hc =>
    obtain ⟨rfl, rfl, rfl, rfl, e5, m, e6⟩ := hr.inv_read e
    have := hv _ _ _ _ _ e
    have : takeMin len (availRead s.rview) = len := takeMin_eq (by rw [iv.availRead]; omega)
    refine ⟨F, hw, ?_, hq, hm, by simp⟩
    simp only [this]
    exact .rdCopy c m _ _ e5 e6
  | @rcopy c pk len k n done tgt i b e hi hb =>
    obtain ⟨_, rfl, rfl, rfl, rfl, e5, m, e6⟩ := hr.inv_copy e
    exact ⟨F, hw, .rdCopy c m _ _ e5 e6, hq, hm, by simp⟩
  | rub i e hi hb => exact iv'.r.elim
  | @rpub c t pk len k n done tgt e hd =>
    obtain ⟨rfl, rfl, rfl, rfl, rfl, e5, m, e6⟩ := hr.inv_copy e
    have hreads := iv'.reads
    simp only [Spsc.ReadsFrom_append] at hreads
    obtain ⟨_, _, _, hdata, _⟩ := hreads
    simp only [Nat.zero_add, if_true] at hdata
    have ec : consumed (s.rlog ++ [⟨true, false, n.toNat, n.toNat, List.map tgt (List.range n.toNat)⟩]) =
        consumed s.rlog + n.toNat := by
      rw [Spsc.consumed_append]; simp [consumed]
    refine ⟨F, hw, ?_, hq, hm, by simp [popK]⟩
    · simp only [if_true, ec]
      have : popK n n (List.map tgt (List.range n.toNat)) = .ret (some m) := by
        rw [hdata, e5, hS, next_eq hm e6]; simp [popK]
      rw [this]
      refine .ok c m ?_ e6
      rw [e5, Nat.mul_add]; omega
  | wdrain q₁ x q₂ e hx =>
    have hsz : (x.drain s.mem).size = s.mem.size := by cases x <;> rfl
    exact ⟨F, by simp only [hsz]; exact hw, hr, hq, hm, hv⟩
  | rdrain e => exact ⟨F, hw, hr, hq, hm, hv⟩

theorem Reach.inv2 (h1 : 0 < one.toNat) {s : Conf one} (h : Reach false one s) :
    ∃ PM IM, Tso.Inv s PM IM ∧ Inv2 s PM IM := by
  induction h with
  | init h =>
    refine ⟨0, 0, Tso.Inv.init h, [], ?_⟩
    obtain ⟨h1, h2, h3, h4, h5, h6, h7, h8, h9, h10, h11, h12⟩ := h
    rw [h7, h8, h9, h10, h11, h12]
    exact ⟨.idle rfl, .idle rfl, List.prefix_refl _, by simp, by simp⟩
  | step _ st ih =>
    obtain ⟨PM, IM, i1, i2⟩ := ih
    exact i2.step h1 i1 st

end Verif.FixedTso
