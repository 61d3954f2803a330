import Verif.MsgHandler.Spec
import Verif.MsgSpsc.Props
/-! Invariant of the message-queue handler. -/
namespace Verif.MsgHandler
open RingBuffer (availRead)
open MsgQueue (Code decHdr)
open MsgSpsc (PushCall PopRes push pop frames)
open MsgSpsc.Spec (pushed popped)
open Spsc (WLoc RLoc RProg)
open Spec (content accepted inProgress)

/-! ### `pri_roundup_power2` -/

theorem shiftCount_bounds (n : Nat) (h : 0 < n) : 2 ^ shiftCount n ≤ n ∧ n < 2 * 2 ^ shiftCount n := by
  induction n using Nat.strongRecOn with
  | ind n ih =>
    rw [shiftCount]
    split
    · simp; omega
    · have := ih (n / 2) (by omega) (by omega)
      have e : 2 ^ (1 + shiftCount (n / 2)) = 2 * 2 ^ shiftCount (n / 2) := by rw [Nat.add_comm, Nat.pow_succ]; omega
      rw [e]; omega

theorem roundup_le {n r : Nat} (hn : 0 < n) (h : roundup n = some r) : n ≤ r := by
  unfold roundup at h
  have := shiftCount_bounds n hn
  split at h
  · split at h
    · simp at h; omega
    · simp at h
  · simp at h; omega

theorem roundup_lt {n r : Nat} (hn : n < 2 ^ 32) (h : roundup n = some r) : r < 2 ^ 32 := by
  unfold roundup at h
  split at h
  · split at h
    · next hc =>
      simp at h
      have : 2 ^ shiftCount n ≤ 2 ^ 30 := Nat.pow_le_pow_right (by omega) (by omega)
      omega
    · simp at h
  · simp at h; omega

theorem roundup_some {n : Nat} (h0 : 0 < n) (hn : n < 2 ^ 30) : ∃ r, roundup n = some r := by
  unfold roundup
  have := shiftCount_bounds n h0
  have : shiftCount n < 30 := by
    rcases Nat.lt_or_ge (shiftCount n) 30 with h | h
    · exact h
    · have : 2 ^ 30 ≤ 2 ^ shiftCount n := Nat.pow_le_pow_right (by omega) h
      omega
  simp only [this, if_true]
  split <;> exact ⟨_, rfl⟩

/-! ### Facts about the queue underneath -/

theorem content_eq (m : Msg) : content m = m.call.bytes := rfl

/-- the call the writer is inside -/
def callOf : WLoc PushCall Code → Option PushCall
  | .run c _ => some c
  | .copy c _ _ _ _ _ => some c
  | _ => none

theorem callOf_step {s t : MsgSpsc.Conf} (h : MsgSpsc.Reach t) (st : Spsc.Step push pop s t) (hi : s.w ≠ .idle)
    (hw : t.whist = s.whist) : callOf t.w = callOf s.w ∧ t.w ≠ .idle := by
  have hc := MsgSpsc.no_crash h
  cases st with
  | wcall c e => exact absurd e hi
  | wret e => simp at hw
  | wabort e => exact absurd rfl hc.2.1
  | wavail e => simp [e, callOf]
  | wskip e => simp [e, callOf]
  | wbegin e => simp [e, callOf]
  | wcopy _ _ _ e => simp [e, callOf]
  | wub i e => exact absurd rfl hc.1
  | wpub e => simp [e, callOf]
  | rcall c e => exact ⟨rfl, hi⟩
  | rret e => exact ⟨rfl, hi⟩
  | rabort e => exact ⟨rfl, hi⟩
  | ravail e => exact ⟨rfl, hi⟩
  | rskip e => exact ⟨rfl, hi⟩
  | rbegin e => exact ⟨rfl, hi⟩
  | rcopy _ _ e => exact ⟨rfl, hi⟩
  | rub _ e => exact ⟨rfl, hi⟩
  | rpub e => exact ⟨rfl, hi⟩

/-- the call the reader is inside -/
def rcallOf : RLoc (BitVec 32) PopRes → Option (BitVec 32)
  | .run c _ => some c
  | .copy c _ _ _ _ _ _ _ => some c
  | _ => none

theorem rcallOf_step {s t : MsgSpsc.Conf} (h : MsgSpsc.Reach t) (st : Spsc.Step push pop s t) (hi : s.r ≠ .idle)
    (hw : t.rhist = s.rhist) : rcallOf t.r = rcallOf s.r ∧ t.r ≠ .idle := by
  have hc := MsgSpsc.no_crash h
  cases st with
  | wcall c e => exact ⟨rfl, hi⟩
  | wret e => exact ⟨rfl, hi⟩
  | wabort e => exact ⟨rfl, hi⟩
  | wavail e => exact ⟨rfl, hi⟩
  | wskip e => exact ⟨rfl, hi⟩
  | wbegin e => exact ⟨rfl, hi⟩
  | wcopy _ _ _ e => exact ⟨rfl, hi⟩
  | wub i e => exact ⟨rfl, hi⟩
  | wpub e => exact ⟨rfl, hi⟩
  | rcall c e => exact absurd e hi
  | rret e => simp at hw
  | rabort e => exact absurd rfl hc.2.2.2
  | ravail e => simp [e, rcallOf]
  | rskip e => simp [e, rcallOf]
  | rbegin e => simp [e, rcallOf]
  | rcopy _ _ e => simp [e, rcallOf]
  | rub _ e => exact absurd rfl hc.2.2.1
  | rpub e => simp [e, rcallOf]

/-- the pop in progress has seen an empty queue -/
def SawEmpty (r : RLoc (BitVec 32) PopRes) : Prop := ∃ c a, r = .run c (.ret a) ∧ a.code = .empty

theorem wphase_sent {cap A S P w F} (hw : MsgSpsc.WPhase cap A S P w F) : frames A <+: S := by
  cases hw with
  | idle h => rw [h]; exact List.prefix_refl _
  | start c h => rw [h]; exact List.prefix_refl _
  | fail c code _ h => rw [h]; exact List.prefix_refl _
  | hdr c h => rw [h]; exact List.prefix_refl _
  | hdrCopy c d h => rw [h]; exact List.prefix_refl _
  | body c h => rw [h]; exact List.prefix_append _ _
  | bodyCopy c d h => rw [h]; exact List.prefix_append _ _
  | ok c h => rw [h]; exact MsgSpsc.frames_prefix (List.prefix_append _ _)

/-- a complete message is visible to the reader when fewer were popped than pushed -/
theorem visible {s : MsgSpsc.Conf} (h : MsgSpsc.Reach s) {c k} (hr : s.r = .run c (.avail k))
    (hlt : (popped s.rhist).length < (pushed s.whist).length) : 5 ≤ (availRead s.ring).toNat := by
  obtain ⟨iv, _, F, hw, hr2, hq, hm⟩ := h.inv2
  obtain ⟨hP, _⟩ := hr2.inv_avail hr
  have hA := hw.subset.2
  have hle := iv.le
  have hQA : popped s.rhist <+: pushed s.whist := List.prefix_of_prefix_length_le hq hA (by omega)
  obtain ⟨T, hT⟩ := hQA
  cases T with
  | nil => rw [← hT] at hlt; simp at hlt
  | cons m T =>
    have hmF : m ∈ F := hA.subset (by rw [← hT]; simp)
    have h0 := (hm m hmF).1
    have hS := wphase_sent hw
    have := hS.length_le
    rw [iv.availRead, hP]
    rw [← hT, MsgSpsc.frames_append, MsgSpsc.frames_cons] at this
    simp only [List.length_append, MsgSpsc.enc_length] at this
    omega

/-- a pop starts seeing an empty queue only when everything pushed has been popped -/
theorem sawEmpty_step {s t : MsgSpsc.Conf} (h : MsgSpsc.Reach s) (st : Spsc.Step push pop s t)
    (he : SawEmpty t.r) : SawEmpty s.r ∨ (pushed s.whist).length ≤ (popped s.rhist).length := by
  obtain ⟨iv, _, F, hw, hr, hq, hm⟩ := h.inv2
  obtain ⟨c', a', e', ea⟩ := he
  have hcode : ∀ {c k} (_ : s.r = .run c (.avail k)), t.r = .run c (k (availRead s.ring)) →
      (pushed s.whist).length ≤ (popped s.rhist).length := by
    intro c k e et
    rcases Nat.lt_or_ge (popped s.rhist).length (pushed s.whist).length with hlt | hge
    · have h5 := visible h e hlt
      obtain ⟨_, rfl⟩ := hr.inv_avail e
      rw [et] at e'
      unfold MsgSpsc.popAvailK at e'
      rw [if_neg (by omega)] at e'
      simp [MsgSpsc.popPeek] at e'
    · exact hge
  cases st with
  | wcall c e => exact .inl ⟨c', a', e', ea⟩
  | wret e => exact .inl ⟨c', a', e', ea⟩
  | wabort e => exact .inl ⟨c', a', e', ea⟩
  | wavail e => exact .inl ⟨c', a', e', ea⟩
  | wskip e => exact .inl ⟨c', a', e', ea⟩
  | wbegin e => exact .inl ⟨c', a', e', ea⟩
  | wcopy _ _ _ e => exact .inl ⟨c', a', e', ea⟩
  | wub i e => exact .inl ⟨c', a', e', ea⟩
  | wpub e => exact .inl ⟨c', a', e', ea⟩
  | rcall c e => simp [pop] at e'
  | rret e => simp at e'
  | rabort e => simp at e'
  | ravail e => exact .inr (hcode e rfl)
  | @rskip c t pk len k e hc =>
    exfalso
    rcases hr.inv_read e with ⟨room, a, rfl, rfl, rfl, rfl, h⟩ | ⟨room, hdr, m, rfl, rfl, rfl, rfl, h⟩ |
      ⟨room, m, rfl, rfl, rfl, h⟩
    · simp [MsgSpsc.popPeekK] at e'
    · simp [MsgSpsc.popDiscardK] at e'
    · simp only [MsgSpsc.popBodyK] at e'
      split at e'
      · simp at e'
      · simp at e'; rw [← e'.2] at ea; simp at ea
  | rbegin e => simp at e'
  | rcopy _ _ e => simp at e'
  | rub _ e => simp at e'
  | @rpub c t pk len k n done tgt e hd =>
    exfalso
    obtain ⟨rfl, hc⟩ := hr.inv_copy e
    rcases hc with ⟨room, a, rfl, rfl, rfl, rfl, h⟩ | ⟨room, hdr, m, rfl, rfl, rfl, rfl, h⟩ |
      ⟨room, m, rfl, rfl, rfl, h⟩
    · simp only [MsgSpsc.popPeekK, ne_eq, not_true_eq_false, if_false] at e'
      split at e'
      · simp at e'
      · split at e'
        · simp at e'; rw [← e'.2] at ea; simp at ea
        · split at e'
          · simp at e'; rw [← e'.2] at ea; simp at ea
          · simp [MsgSpsc.popDiscard] at e'
    · simp [MsgSpsc.popDiscardK, MsgSpsc.popBody] at e'
    · simp only [MsgSpsc.popBodyK] at e'
      split at e'
      · simp at e'
      · simp at e'; rw [← e'.2] at ea; simp at ea

/-! ### The invariant -/

open Classical in
/-- a token the worker has taken and not yet turned into a popped message -/
noncomputable def credit (r : RLoc (BitVec 32) PopRes) : Wrk → Nat
  | .check => 1
  | .popping => if SawEmpty r then 0 else 1
  | .top last => if last = .success ∨ last = .empty then 0 else 1
  | _ => 0

def postCount : Prod → Nat
  | .posting _ => 1
  | _ => 0

def posting : Prod → List (List Byte)
  | .posting m => [content m]
  | _ => []

def WPc (w : WLoc PushCall Code) : Prod → Prop
  | .pushing m => callOf w = some m.call ∧ w ≠ .idle
  | _ => w = .idle

def RPc (r : RLoc (BitVec 32) PopRes) (buf : Nat) : Wrk → Prop
  | .popping => rcallOf r = some (BitVec.ofNat 32 buf) ∧ r ≠ .idle
  | _ => r = .idle

/-- the loop is over -/
def Over (w : Wrk) : Prop := w = .leave ∨ w = .gone ∨ w = .ub

structure Inv (s : Sys) : Prop where
  reach : MsgSpsc.Reach s.conf
  wpc : WPc s.conf.w s.prod
  rpc : RPc s.conf.r s.buf s.wrk
  acc : pushed s.conf.whist = accepted s.results ++ posting s.prod
  del : s.delivered = popped s.conf.rhist
  cnt : ¬ Over s.wrk →
    (pushed s.conf.whist).length ≤ (popped s.conf.rhist).length + s.sem + credit s.conf.r s.wrk + postCount s.prod
  dst : s.dst ≠ .no → s.exit = true ∧ s.prod = .idle
  tok : s.dst = .posted → Over s.wrk ∨ s.wrk = .check ∨ 0 < s.sem
  fin : s.wrk = .gone → s.exit = true
  buf : s.wrk ≠ .start → ¬ Over s.wrk → s.buf < 2 ^ 32
  fit : ∀ m, s.wrk = .handle m → m.length ≤ s.buf
  why : s.exit = true → s.wrk = .gone ∨ s.dst ≠ .no

theorem accepted_ok (r : List (Msg × Code)) (m : Msg) : accepted (r ++ [(m, .success)]) = accepted r ++ [content m] := by
  simp [accepted]
theorem accepted_fail (r : List (Msg × Code)) (m : Msg) {a : Code} (h : a ≠ .success) :
    accepted (r ++ [(m, a)]) = accepted r := by simp [accepted, h]

theorem Inv.init {s : Sys} (h : Init s) : Inv s := by
  obtain ⟨h1, h2, h3, h4, h5, h6, h7, h8⟩ := h
  have hr := Spsc.Reach.init (bodyW := push) (bodyR := pop) h1
  obtain ⟨_, _, _, _, e1, e2, _, _, e3, e4⟩ := h1
  refine ⟨hr, ?_, ?_, ?_, ?_, ?_, ?_, ?_, ?_, ?_, ?_, ?_⟩
  · rw [h4]; exact e1
  · rw [h5]; exact e2
  · rw [e3, h7, h4]; rfl
  · rw [e4, h8]; rfl
  · intro _; rw [e3]; simp [pushed]
  · simp [h6]
  · simp [h6]
  · simp [h5]
  · simp [h5]
  · simp [h5]
  · simp [h3]

theorem Inv.step {e : Ev} {s t : Sys} (h : Inv s) (st : Step e s t) : Inv t := by
  obtain ⟨hR, hwpc, hrpc, hacc, hdel, hcnt, hdst, htok, hfin, hbuf, hfit, hwhy⟩ := h
  cases st with
  | push_null m e1 e2 e3 =>
    exact ⟨hR, hwpc, hrpc, by rw [hacc]; simp [accepted_fail], hdel, hcnt, hdst, htok, hfin, hbuf, hfit, hwhy⟩
  | push_call m e1 e2 e3 e4 =>
    refine ⟨hR.step (.wcall _ e4), ⟨rfl, by simp⟩, hrpc, ?_, hdel, ?_, ?_, htok, hfin, hbuf, hfit, hwhy⟩
    · rw [hacc, e1]; rfl
    · intro ho; have := hcnt ho; rw [e1] at this; exact this
    · intro hd; exact absurd e2 hd
  | @push_step _ m c e1 e2 e3 e4 e5 e6 =>
    have hR' : MsgSpsc.Reach c := hR.step e3
    refine ⟨hR', ?_, by rw [← e4] at hrpc; exact hrpc, ?_, ?_, ?_, hdst, htok, hfin, hbuf, hfit, hwhy⟩
    · rw [e1] at hwpc ⊢
      have := callOf_step hR' e3 e2 e6
      exact ⟨by rw [this.1]; exact hwpc.1, this.2⟩
    · rw [← hacc, e6]
    · rw [hdel, e5]
    · intro ho; have := hcnt ho; simp only [e4, e5, e6]; exact this
  | @push_fail _ m c a e1 e2 e3 =>
    refine ⟨hR.step (.wret e2), rfl, hrpc, ?_, hdel, ?_, ?_, htok, hfin, hbuf, hfit, hwhy⟩
    · simp only [MsgSpsc.pushed_fail e3, accepted_fail _ _ e3]; rw [hacc, e1]; rfl
    · intro ho; have := hcnt ho; simp only [MsgSpsc.pushed_fail e3]; rw [e1] at this; exact this
    · intro hd; exact ⟨(hdst hd).1, rfl⟩
  | @push_ok _ m c a e1 e2 e3 =>
    have hc : c = m.call := by
      rw [e1, e2] at hwpc; simpa [WPc, callOf] using hwpc
    refine ⟨hR.step (.wret e2), rfl, hrpc, ?_, hdel, ?_, ?_, htok, hfin, hbuf, hfit, hwhy⟩
    · simp only [MsgSpsc.pushed_ok e3, hc]; rw [hacc, e1]; simp [posting, content_eq]
    · intro ho; have := hcnt ho
      simp only [MsgSpsc.pushed_ok e3, List.length_append]; rw [e1] at this; simp [postCount] at this ⊢; omega
    · intro hd; have := (hdst hd).2; rw [e1] at this; simp at this
  | @push_post _ m e1 =>
    rw [e1] at hwpc
    refine ⟨hR, hwpc, hrpc, ?_, hdel, ?_, ?_, ?_, hfin, hbuf, hfit, hwhy⟩
    · rw [hacc, e1]; simp [accepted_ok, posting]
    · intro ho; have := hcnt ho
      rw [e1] at this; simp only [postCount] at this ⊢; omega
    · intro hd; have := (hdst hd).2; rw [e1] at this; simp at this
    · intro hd; exact .inr (.inr (by simp))
  | boot e1 =>
    rw [e1] at hrpc
    refine ⟨hR, hwpc, hrpc, hacc, hdel, ?_, hdst, ?_, by simp, by simp, by simp, ?_⟩
    · intro _; have := hcnt (by simp [e1, Over]); rw [e1] at this; simpa [credit] using this
    · intro hd; have := htok hd; simpa [e1, Over] using this
    · intro hx; have := hwhy hx; simpa [e1] using this
  | boot_oom e1 =>
    rw [e1] at hrpc
    exact ⟨hR, hwpc, hrpc, hacc, hdel, by simp [Over], fun hd => ⟨rfl, (hdst hd).2⟩, by simp [Over], by simp,
      by simp [Over], by simp, by simp⟩
  | wait e1 e2 e3 =>
    rw [e1] at hrpc
    refine ⟨hR, hwpc, hrpc, hacc, hdel, ?_, hdst, by simp, by simp, ?_, by simp, ?_⟩
    · intro _; have := hcnt (by simp [e1, Over]); rw [e1] at this; simp only [credit, e2, if_true] at this ⊢; omega
    · intro _ _; exact hbuf (by simp [e1]) (by simp [e1, Over])
    · intro hx; have := hwhy hx; simpa [e1] using this
  | wait_spurious e1 e2 =>
    rw [e1] at hrpc
    refine ⟨hR, hwpc, hrpc, hacc, hdel, ?_, hdst, by simp, by simp, ?_, by simp, ?_⟩
    · intro _; have := hcnt (by simp [e1, Over]); rw [e1] at this; simp only [credit, e2, if_true] at this ⊢; omega
    · intro _ _; exact hbuf (by simp [e1]) (by simp [e1, Over])
    · intro hx; have := hwhy hx; simpa [e1] using this
  | nowait e1 e2 =>
    rw [e1] at hrpc
    refine ⟨hR, hwpc, hrpc, hacc, hdel, ?_, hdst, by simp, by simp, ?_, by simp, ?_⟩
    · intro _; have := hcnt (by simp [e1, Over]); rw [e1] at this; simp only [credit, e2, if_false] at this ⊢; omega
    · intro _ _; exact hbuf (by simp [e1]) (by simp [e1, Over])
    · intro hx; have := hwhy hx; simpa [e1] using this
  | quit e1 e2 =>
    rw [e1] at hrpc
    refine ⟨hR, hwpc, hrpc, hacc, hdel, by simp [Over], hdst, by simp [Over], by simp, by simp [Over], by simp, ?_⟩
    intro hx; have := hwhy hx; simpa [e1] using this
  | pop_call e1 e2 e3 =>
    refine ⟨hR.step (.rcall _ e3), hwpc, ⟨rfl, by simp⟩, hacc, hdel, ?_, hdst, ?_, by simp, ?_, by simp, ?_⟩
    · intro _; have := hcnt (by simp [e1, Over]); rw [e1] at this
      have hn : ¬ SawEmpty (.run (BitVec.ofNat 32 s.buf) (pop (BitVec.ofNat 32 s.buf))) := by
        rintro ⟨c, a, h, _⟩; simp [pop] at h
      simp only [credit, hn, if_false] at this ⊢; omega
    · intro hd; have := (hdst (by rw [hd]; simp)).1; rw [e2] at this; simp at this
    · intro _ _; exact hbuf (by simp [e1]) (by simp [e1, Over])
    · intro hx; have := hwhy hx; simpa [e1] using this
  | @pop_step _ c e1 e2 e3 e4 e5 e6 =>
    have hR' : MsgSpsc.Reach c := hR.step e3
    refine ⟨hR', by rw [← e4] at hwpc; exact hwpc, ?_, ?_, ?_, ?_, hdst, htok, hfin, hbuf, hfit, hwhy⟩
    · rw [e1] at hrpc ⊢
      have := rcallOf_step hR' e3 e2 e6
      exact ⟨by rw [this.1]; exact hrpc.1, this.2⟩
    · rw [← hacc, e5]
    · rw [hdel, e6]
    · intro ho
      have := hcnt ho
      rw [e1] at this
      simp only [e1, e5, e6, credit] at this ⊢
      by_cases hE : SawEmpty c.r
      · rcases sawEmpty_step hR e3 hE with h | h
        · simp only [h, hE, if_true] at this ⊢; omega
        · omega
      · simp only [hE, if_false]
        split at this <;> omega
  | @pop_ok _ c a e1 e2 e3 =>
    refine ⟨hR.step (.rret e2), hwpc, rfl, hacc, ?_, ?_, hdst, ?_, by simp, ?_, ?_, ?_⟩
    · simp only [MsgSpsc.popped_ok e3, hdel]
    · intro _; have := hcnt (by simp [e1, Over]); rw [e1] at this
      simp only [MsgSpsc.popped_ok e3, List.length_append, List.length_singleton]
      simp only [credit] at this ⊢
      split at this <;> omega
    · intro hd; have := htok hd; simpa [e1, Over] using this
    · intro _ _; exact hbuf (by simp [e1]) (by simp [e1, Over])
    · intro m hm
      simp at hm
      have hb := hbuf (by simp [e1]) (by simp [e1, Over])
      obtain ⟨_, _, F, _, hr, _⟩ := hR.inv2
      have hc : c = BitVec.ofNat 32 s.buf := by rw [e1, e2] at hrpc; simpa [RPc, rcallOf] using hrpc
      rcases hr.inv_ret e2 with ⟨_, _, _, h⟩ | ⟨h, _⟩
      · rw [hc] at h; simp at h; rw [← hm]; show a.data.length ≤ s.buf; omega
      · rcases h with h | h
        · rw [e3] at h; simp at h
        · rw [e3] at h; simp at h
    · intro hx; have := hwhy hx; simpa [e1] using this
  | @pop_grow _ c a n e1 e2 e3 e4 =>
    have ef : a.code ≠ .success := by rw [e3]; simp
    refine ⟨hR.step (.rret e2), hwpc, rfl, hacc, ?_, ?_, hdst, ?_, by simp, ?_, by simp, ?_⟩
    · simp only [MsgSpsc.popped_fail ef, hdel]
    · intro _; have := hcnt (by simp [e1, Over]); rw [e1] at this
      simp only [MsgSpsc.popped_fail ef]
      have h1 : ¬ (a.code = .success ∨ a.code = .empty) := by rw [e3]; simp
      have h2 : ¬ SawEmpty s.conf.r := by
        rintro ⟨c', a', h, h'⟩; rw [e2] at h; simp at h; rw [← h.2, e3] at h'; simp at h'
      simp only [credit, h1, h2, if_false] at this ⊢
      omega
    · intro hd; have := htok hd; simpa [e1, Over] using this
    · intro _ _; exact roundup_lt a.room.isLt e4
    · intro hx; have := hwhy hx; simpa [e1] using this
  | @pop_grow_oom _ c a n e1 e2 e3 e4 =>
    have ef : a.code ≠ .success := by rw [e3]; simp
    refine ⟨hR.step (.rret e2), hwpc, rfl, hacc, ?_, by simp [Over], hdst, by simp [Over], by simp, by simp [Over],
      by simp, ?_⟩
    · simp only [MsgSpsc.popped_fail ef, hdel]
    · intro hx; have := hwhy hx; simpa [e1] using this
  | @pop_grow_ub _ c a e1 e2 e3 e4 =>
    have ef : a.code ≠ .success := by rw [e3]; simp
    refine ⟨hR.step (.rret e2), hwpc, rfl, hacc, ?_, by simp [Over], hdst, by simp [Over], by simp, by simp [Over],
      by simp, ?_⟩
    · simp only [MsgSpsc.popped_fail ef, hdel]
    · intro hx; have := hwhy hx; simpa [e1] using this
  | @pop_retry _ c a e1 e2 e3 e4 =>
    refine ⟨hR.step (.rret e2), hwpc, rfl, hacc, ?_, ?_, hdst, ?_, by simp, ?_, by simp, ?_⟩
    · simp only [MsgSpsc.popped_fail e3, hdel]
    · intro _; have := hcnt (by simp [e1, Over]); rw [e1] at this
      simp only [MsgSpsc.popped_fail e3]
      simp only [credit] at this ⊢
      by_cases h1 : a.code = .empty
      · have h2 : SawEmpty s.conf.r := ⟨_, _, e2, h1⟩
        simp only [h2, if_true] at this; omega
      · simp only [e3, h1, or_self, if_false]; split at this <;> omega
    · intro hd; have := htok hd; simpa [e1, Over] using this
    · intro _ _; exact hbuf (by simp [e1]) (by simp [e1, Over])
    · intro hx; have := hwhy hx; simpa [e1] using this
  | cb_ok e1 =>
    rw [e1] at hrpc
    refine ⟨hR, hwpc, hrpc, hacc, hdel, ?_, hdst, ?_, by simp, ?_, by simp, ?_⟩
    · intro _; have := hcnt (by simp [e1, Over]); rw [e1] at this; simpa [credit] using this
    · intro hd; have := htok hd; simpa [e1, Over] using this
    · intro _ _; exact hbuf (by simp [e1]) (by simp [e1, Over])
    · intro hx; have := hwhy hx; simpa [e1] using this
  | cb_stop e1 =>
    rw [e1] at hrpc
    refine ⟨hR, hwpc, hrpc, hacc, hdel, by simp [Over], hdst, by simp [Over], by simp, by simp [Over], by simp, ?_⟩
    intro hx; have := hwhy hx; simpa [e1] using this
  | leave e1 =>
    rw [e1] at hrpc
    exact ⟨hR, hwpc, hrpc, hacc, hdel, by simp [Over], fun hd => ⟨rfl, (hdst hd).2⟩, by simp [Over], by simp,
      by simp [Over], by simp, by simp⟩
  | d_flag e1 e2 =>
    exact ⟨hR, hwpc, hrpc, hacc, hdel, hcnt, fun _ => ⟨rfl, e2⟩, by simp, fun _ => rfl, hbuf, hfit, by simp⟩
  | d_post e1 =>
    refine ⟨hR, hwpc, hrpc, hacc, hdel, ?_, fun _ => hdst (by simp [e1]), by simp, hfin, hbuf, hfit, by simp⟩
    intro ho; have := hcnt ho; simp only []; omega
  | d_join e1 e2 =>
    exact ⟨hR, hwpc, hrpc, hacc, hdel, hcnt, fun _ => hdst (by simp [e1]), by simp, hfin, hbuf, hfit, by simp⟩

theorem Steps.inv {ok : Ev → Prop} {s t : Sys} (h : Steps ok s t) (hs : Inv s) : Inv t := by
  induction h with
  | refl => exact hs
  | step _ _ st ih => exact ih.step st

theorem Reach.inv {s : Sys} (h : Reach s) : Inv s := by
  obtain ⟨i, hi, h⟩ := h
  exact h.inv (Inv.init hi)

end Verif.MsgHandler
