import Verif.Tso.Props
import Verif.MsgSpsc.Props
/-! Invariant of the two-thread message queue under total store order. -/
namespace Verif.MsgTso
open RingBuffer (Ring availRead availWrite takeMin)
open MsgQueue (Code encHdr decHdr enc)
open Spsc (WProg RProg WLoc RLoc WDone)
open Spsc.Spec (sent consumed)
open MsgSpsc
open MsgSpsc.Spec (pushed popped inFlight)

/-- the two-thread system with store buffers -/
abbrev Conf := Tso.Conf PushCall Code (BitVec 32) PopRes
/-- states reachable by any interleaving of any pushes, pops and drains; `pso` as in `Verif.Tso` -/
abbrev Reach (pso : Bool) : Conf → Prop := Tso.Reach pso push pop

/-- the stream up to a published value of `in`: whole frames, possibly followed by one bare header -/
def Bd (F : List (List Byte)) (V : List Byte) : Prop :=
  ∃ G, G <+: F ∧ (V = frames G ∨ ∃ m, G ++ [m] <+: F ∧ V = frames G ++ encHdr (BitVec.ofNat 32 m.length))

theorem Bd.mono {F F' V} (h : Bd F V) (hF : F <+: F') : Bd F' V := by
  obtain ⟨G, h1, h2⟩ := h
  refine ⟨G, h1.trans hF, ?_⟩
  rcases h2 with h2 | ⟨m, h2, h3⟩
  · exact .inl h2
  · exact .inr ⟨m, h2.trans hF, h3⟩

/-- when at least five unread bytes are visible, the first unread message is visible completely -/
theorem Bd.whole {F V} (h : Bd F V) {Q : List (List Byte)} {P : Nat} (hQ : Q <+: F) (hP : P = (frames Q).length)
    (h5 : P + 5 ≤ V.length) : ∃ m, Q ++ [m] <+: F ∧ P + 4 + m.length ≤ V.length := by
  obtain ⟨G, hG, hV⟩ := h
  have hVl : (frames G).length ≤ V.length ∧ V.length ≤ (frames G).length + 4 := by
    rcases hV with rfl | ⟨m, _, rfl⟩ <;> simp
  rcases Nat.lt_or_ge Q.length G.length with hlt | hge
  · obtain ⟨T, rfl⟩ := List.prefix_of_prefix_length_le hQ hG (by omega)
    cases T with
    | nil => simp at hlt
    | cons m T =>
      refine ⟨m, List.IsPrefix.trans ⟨T, by simp⟩ hG, ?_⟩
      rw [frames_append, frames_cons, List.length_append, List.length_append, enc_length] at hVl
      omega
  · have := (frames_prefix (List.prefix_of_prefix_length_le hG hQ hge)).length_le
    omega

def Inv2 (s : Conf) (PM IM : Nat) : Prop :=
  (∀ x ∈ s.rhist, PopOk x) ∧
  ∃ F, WPhase s.mem.size.toNat (pushed s.whist) (sent s.wlog) PM s.w F ∧
    RPhase (popped s.rhist) F ((sent s.wlog).take IM) (consumed s.rlog) s.r ∧ popped s.rhist <+: F ∧
    (∀ m ∈ F, 0 < m.length ∧ 4 + m.length ≤ s.mem.size.toNat) ∧
    ∀ l, l <+: s.wlog → Bd F (sent l)

theorem Inv2.mono {s : Conf} {PM IM PM' IM' : Nat} (h : Inv2 s PM IM) (h1 : PM ≤ PM') (h2 : IM ≤ IM') : Inv2 s PM' IM' := by
  obtain ⟨hh, F, hw, hr, hq, hm, hbd⟩ := h
  exact ⟨hh, F, hw.mono h1, hr.mono (List.prefix_refl _) (Tso.take_mono (List.prefix_refl _) _ _ h2), hq, hm, hbd⟩

/-- completed writes of a log extended by one -/
theorem bd_snoc {F : List (List Byte)} {L : List WDone} {d : WDone} (h : ∀ l, l <+: L → Bd F (sent l))
    (hd : Bd F (sent (L ++ [d]))) : ∀ l, l <+: L ++ [d] → Bd F (sent l) := by
  intro l hl
  rcases List.prefix_concat_iff.1 hl with rfl | hl
  · exact hd
  · exact h l hl

set_option maxHeartbeats 1000000 in
theorem Inv2.step {s t : Conf} {PM IM : Nat} (h : Inv2 s PM IM) (iv : Tso.Inv s PM IM)
    (st : Tso.Step false push pop s t) : ∃ PM' IM', Tso.Inv t PM' IM' ∧ Inv2 t PM' IM' := by
  have key : Inv2 t PM IM → ∃ PM' IM', Tso.Inv t PM' IM' ∧ Inv2 t PM' IM' := by
    intro h2
    obtain ⟨PM', IM', iv', a, b, _⟩ := iv.step push_valid st
    exact ⟨PM', IM', iv', h2.mono a b⟩
  apply key
  obtain ⟨PM', IM', iv', _, _, _⟩ := iv.step push_valid st
  obtain ⟨hh, F, hw, hr, hq, hm, hbd⟩ := h
  have hle := iv.le
  have hfit := iv.fit
  have hpm := iv.rq.le
  have him := iv.inle
  have hvis := iv.vis
  cases st with
  | wcall c e =>
    obtain ⟨rfl, hS⟩ := hw.inv_idle e
    exact ⟨hh, _, .start c hS, hr, hq, hm, hbd⟩
  | @wret c a e =>
    rcases hw.inv_ret e with ⟨e1, e2, e3⟩ | ⟨e1, e2, e3⟩
    · refine ⟨hh, F, ?_, hr, hq, hm, hbd⟩
      simp only [pushed_ok e1]
      rw [← e2]; exact .idle e3
    · subst e2
      refine ⟨hh, _, ?_, hr, hq, hm, hbd⟩
      simp only [pushed_fail e1]
      exact .idle e3
  | wabort e => exact (hw.inv_abort e).elim
  | @wavail c k e =>
    obtain ⟨e1, e2, e3, e4⟩ := hw.inv_avail e
    refine ⟨hh, F, ?_, hr, hq, hm, hbd⟩
    subst e3; subst e1
    simp only [pushAvailK]
    split
    · exact .fail c _ (by simp) e2
    · next hc =>
      rw [iv.availWrite] at hc
      exact .hdr c e2 (by omega) e4
  | @wskip c src len k e hc =>
    exfalso
    rcases hw.inv_write e with ⟨rfl, rfl, rfl, e4, e5, e6, e7⟩ | ⟨rfl, rfl, rfl, e4, e5, e6, e7⟩
    · rcases hc with hc | hc
      · simp at hc
      · have := congrArg BitVec.toNat hc
        rw [iv.availWrite] at this
        simp at this; omega
    · rcases hc with hc | hc
      · exact e7 hc
      · have := congrArg BitVec.toNat hc
        have := bv_ne_zero e7
        rw [iv.availWrite] at *
        simp at *; omega
  | @wbegin c src len k e hc =>
    refine ⟨hh, F, ?_, hr, hq, hm, hbd⟩
    rcases hw.inv_write e with ⟨rfl, rfl, rfl, e4, e5, e6, e7⟩ | ⟨rfl, rfl, rfl, e4, e5, e6, e7⟩
    · have hlen : (4#32).toNat ≤ (availWrite s.wview).toNat := by rw [iv.availWrite]; show 4 ≤ _; omega
      simp only [takeMin_eq hlen]
      rw [e4]
      exact .hdrCopy c [] e5 e6 e7
    · have hlen : c.size.toNat ≤ (availWrite s.wview).toNat := by rw [iv.availWrite]; omega
      simp only [takeMin_eq hlen]
      rw [e4]
      exact .bodyCopy c [] e5 e6 e7
  | @wcopy c src len k n done i b e hi hb hst =>
    refine ⟨hh, F, ?_, hr, hq, hm, hbd⟩
    rcases hw.inv_copy e with ⟨rfl, rfl, rfl, rfl, e4, e5, e6, e7⟩ | ⟨rfl, rfl, rfl, rfl, e4, e5, e6, e7⟩
    · rw [e4]; exact .hdrCopy c _ e5 e6 e7
    · rw [e4]; exact .bodyCopy c _ e5 e6 e7
  | wub i e hi hb => obtain ⟨_, _, hf⟩ := iv'.w; exact hf.elim
  | @wpub c src len k n done e hd =>
    have eS : ∀ (a : List Byte) (l n : Nat), sent (s.wlog ++ [⟨a, l, n⟩]) = sent s.wlog ++ a.take n := by
      intro a l n; rw [Spsc.sent_append, Spsc.sent_single]
    rcases hw.inv_copy e with ⟨rfl, rfl, rfl, rfl, e4, e5, e6, e7⟩ | ⟨rfl, rfl, rfl, rfl, e4, e5, e6, e7⟩
    · subst e4
      refine ⟨hh, pushed s.whist ++ [c.bytes], ?_, ?_, hq.trans (List.prefix_append _ _), ?_,
        bd_snoc (fun l hl => (hbd l hl).mono (List.prefix_append _ _)) ⟨pushed s.whist, List.prefix_append _ _,
          .inr ⟨c.bytes, List.prefix_refl _, by
            rw [eS, e5, bytes_length, List.take_of_length_le (by simp)]; simp⟩⟩⟩
      · simp only [eS]
        have e8 : List.take (4#32).toNat (encHdr c.size) = encHdr c.size := List.take_of_length_le (by simp)
        rw [e8]
        have : pushHdrK c 4#32 = pushBody c := by simp [pushHdrK]
        rw [this]
        exact .body c (by rw [e5]) (by simp; omega) e7
      · simp only [eS]
        exact hr.mono (List.prefix_append _ _) (Tso.take_mono (List.prefix_append _ _) _ _ (Nat.le_refl _))
      · intro m hmm
        rcases List.mem_append.1 hmm with h1 | h1
        · exact hm m h1
        · simp at h1; rw [h1, bytes_length]; have := bv_ne_zero e7; exact ⟨by omega, show 4 + _ ≤ s.mem.size.toNat by omega⟩
    · have eF : sent s.wlog ++ List.take c.size.toNat c.msg = frames F := by
        rw [e4, e5, frames_append, frames_single, enc_bytes, List.append_assoc]; rfl
      refine ⟨hh, F, ?_, ?_, hq, hm, bd_snoc hbd ⟨F, List.prefix_refl _, .inl (by rw [eS, eF])⟩⟩
      · simp only [eS]
        have : pushBodyK c c.size = .ret .success := by simp [pushBodyK]
        rw [this, e4]
        refine .ok c ?_
        rw [e5, frames_append, frames_single, enc_bytes, List.append_assoc]; rfl
      · simp only [eS]
        exact hr.mono (List.prefix_refl _) (Tso.take_mono (List.prefix_append _ _) _ _ (Nat.le_refl _))
  | rcall c e => exact ⟨hh, F, hw, .start c (hr.inv_idle e), hq, hm, hbd⟩
  | @rret c a e =>
    rcases hr.inv_ret e with ⟨e1, e2, e3, e4⟩ | ⟨e1, e2⟩
    · refine ⟨?_, F, hw, ?_, ?_, hm, hbd⟩
      · intro x hx
        rcases List.mem_append.1 hx with hx | hx
        · exact hh x hx
        · simp at hx; rw [hx]; exact .inl ⟨e1, e4⟩
      · simp only [popped_ok e1]; exact .idle e2
      · simp only [popped_ok e1]; exact e3
    · have e0 : a.code ≠ .success := by
        rcases e1 with e1 | ⟨e1, _, _⟩ <;> rw [e1] <;> simp
      refine ⟨?_, F, hw, ?_, ?_, hm, hbd⟩
      · intro x hx
        rcases List.mem_append.1 hx with hx | hx
        · exact hh x hx
        · simp at hx; rw [hx]
          rcases e1 with e1 | ⟨e1, e2, _⟩
          · exact .inr (.inl e1)
          · exact .inr (.inr ⟨e1, e2⟩)
      · simp only [popped_fail e0]; exact .idle e2
      · simp only [popped_fail e0]; exact hq
  | rabort e => exact (hr.inv_abort e).elim
  | @ravail c k e =>
    obtain ⟨e1, rfl⟩ := hr.inv_avail e
    refine ⟨hh, F, hw, ?_, hq, hm, hbd⟩
    simp only [popAvailK]
    split
    · exact .fail c _ (.inl rfl) e1
    · next hc =>
      have ha := iv.availRead
      obtain ⟨l, l1, l2⟩ := iv.bd
      have hV : (sent s.wlog).take IM = sent l := by
        obtain ⟨T, hT⟩ := Tso.sent_prefix l1
        rw [← hT, ← l2, List.take_left']
        rfl
      obtain ⟨m, m1, m2⟩ := (hbd l l1).whole hq e1 (by omega)
      exact .peek c _ _ rfl ⟨m, m1, by omega⟩ e1 (by omega) (by omega)
  | @rskip c t pk len k e hc =>
    have hcase := hr.inv_read e
    have hl := hcase.len_le
    have hc0 : len = 0#32 := by
      rcases hc with hc | hc
      · exact hc
      · have := congrArg BitVec.toNat hc
        rw [iv.availRead] at this
        apply BitVec.eq_of_toNat_eq
        simp at this ⊢; omega
    have ec : consumed (s.rlog ++ [⟨t, pk, len.toNat, 0, []⟩]) = consumed s.rlog := by
      rw [Spsc.consumed_append]; simp [consumed]
    refine ⟨hh, F, hw, ?_, hq, hm, hbd⟩
    simp only [ec]
    rcases hcase with ⟨room, a, rfl, rfl, rfl, rfl, h⟩ | ⟨room, hdr, m, rfl, rfl, rfl, rfl, h⟩ |
      ⟨room, m, rfl, rfl, rfl, h1, h2, h3, h4, h5⟩
    · simp at hc0
    · simp at hc0
    · subst hc0
      have hm0 : m = [] := by
        rw [← List.length_eq_zero_iff]; simp at h3; omega
      subst hm0
      have : popBodyK room 0#32 0#32 [] = .ret ⟨.success, [], room⟩ := by simp [popBodyK]
      rw [this]
      refine .ok c [] room ?_ h2 (Nat.zero_le _)
      rw [h1, frames_append, frames_single, List.length_append, enc_length]; rfl
  | @rbegin c t pk len k e hc =>
    have hcase := hr.inv_read e
    have hl := hcase.len_le
    have : takeMin len (availRead s.rview) = len := takeMin_eq (by rw [iv.availRead]; omega)
    refine ⟨hh, F, hw, ?_, hq, hm, hbd⟩
    simp only [this]
    exact hcase.toCopy _ _
  | @rcopy c pk len k n done tgt i b e hi hb =>
    obtain ⟨rfl, hcase⟩ := hr.inv_copy e
    exact ⟨hh, F, hw, hcase.toCopy _ _, hq, hm, hbd⟩
  | rub i e hi hb => exact iv'.r.elim
  | @rpub c t pk len k n done tgt e hd =>
    obtain ⟨rfl, hcase⟩ := hr.inv_copy e
    have hreads := iv'.reads
    simp only [Spsc.ReadsFrom_append] at hreads
    obtain ⟨_, _, _, hdata, _⟩ := hreads
    simp only [Nat.zero_add] at hdata
    have hS := hw.prefix
    generalize (if t = true then List.map tgt (List.range n.toNat) else []) = data at *
    have ec : consumed (s.rlog ++ [⟨t, pk, n.toNat, n.toNat, data⟩]) = consumed s.rlog + if pk = true then 0 else n.toNat := by
      rw [Spsc.consumed_append]; simp [consumed]
    refine ⟨hh, F, hw, ?_, hq, hm, hbd⟩
    simp only [ec]
    rcases hcase with ⟨room, a, rfl, rfl, rfl, rfl, rfl, ⟨m', hp', hl'⟩, h1, h2, h3⟩ | ⟨room, hdr, m, rfl, rfl, rfl, rfl, h1, h2, h3, h4, h5⟩ |
      ⟨room, m, rfl, rfl, rfl, h1, h2, h3, h4, h5⟩
    · simp only [if_true, Nat.add_zero] at hdata ⊢
      obtain ⟨m, hp, henc⟩ := next_msg hS hq (by omega)
      rw [h1] at hdata
      have hd2 : data = encHdr (BitVec.ofNat 32 m.length) := by rw [hdata]; exact henc
      have hmm : m.length < 2 ^ 32 := by
        have := (hm m (hp.subset (by simp))).2; have : s.mem.size.toNat < 2 ^ 32 := s.mem.size.isLt; omega
      have hmt : (BitVec.ofNat 32 m.length).toNat = m.length := by simp; omega
      rw [hd2]
      simp only [popPeekK, ne_eq, not_true_eq_false, if_false, MsgQueue.dec_enc]
      have hmm' : m' = m := by
        have := List.prefix_of_prefix_length_le hp' hp (by simp)
        have := this.eq_of_length (by simp)
        simpa using this
      subst hmm'
      rw [if_neg (by omega)]
      split
      · next hlt => exact .fail room _ (.inr ⟨rfl, hlt, m', hp, hmt⟩) h1
      · next hb => exact .discard room room _ m' h1 hp hmt (by omega) (by simpa [BitVec.lt_def] using hb)
    · simp only [Bool.false_eq_true, if_false] at hdata ⊢
      have : popDiscardK room hdr 4#32 data = popBody room hdr := by simp [popDiscardK]
      rw [this]
      refine .body c room hdr m ?_ h2 h3 ?_ h5
      · rw [h1]; rfl
      · show _ + 4 + _ ≤ _; omega
    · simp only [if_true, Bool.false_eq_true, if_false] at hdata ⊢
      have hb := next_body hS h2 (by omega)
      rw [h1, h3, hb] at hdata
      have : popBodyK room n n data = .ret ⟨.success, m, room⟩ := by simp [popBodyK, hdata]
      rw [this]
      refine .ok c m room ?_ h2 (by omega)
      rw [frames_append, frames_single, List.length_append, enc_length]; omega

  | wdrain q₁ x q₂ e hx =>
    have hsz : (x.drain s.mem).size = s.mem.size := by cases x <;> rfl
    exact ⟨hh, F, by simp only [hsz]; exact hw, hr, hq, by simp only [hsz]; exact hm, hbd⟩
  | rdrain e => exact ⟨hh, F, hw, hr, hq, hm, hbd⟩

theorem Reach.inv2 {s : Conf} (h : Reach false s) : ∃ PM IM, Tso.Inv s PM IM ∧ Inv2 s PM IM := by
  induction h with
  | init h =>
    refine ⟨0, 0, Tso.Inv.init h, by rw [h.2.2.2.2.2.2.2.2.2.2.2]; simp, [], ?_⟩
    obtain ⟨h1, h2, h3, h4, h5, h6, h7, h8, h9, h10, h11, h12⟩ := h
    rw [h7, h8, h9, h10, h11, h12]
    refine ⟨.idle rfl, .idle rfl, List.prefix_refl _, by simp, fun l hl => ?_⟩
    have : l = [] := by simpa using hl
    subst this
    exact ⟨[], List.prefix_refl _, .inl rfl⟩
  | step _ st ih =>
    obtain ⟨PM, IM, i1, i2⟩ := ih
    exact i2.step i1 st

end Verif.MsgTso
