import Verif.RingBufTso.Model
import Verif.RingBufSpsc.Props
/-! Inductive invariant of the two-thread system under total store order. -/
namespace Verif.RingBufTso
open RingBuf (Ring)
open RingBufSpsc (WLoc RLoc WDone RDone byteAddr newOffset WOk ROk mod_diff byteAddr_eq newOffset_eq)
open RingBufSpsc.Spec (sent consumed ReadsFrom received)

/-- The reader's pending stores carry `offset_read` from stream position `PM` (memory) to `PR` (the reader's own). -/
def RQ (size PM : Nat) : List (BitVec 64) → Nat → Prop
  | [], PR => PM = PR
  | v :: q, PR => ∃ p, PM ≤ p ∧ v.toNat = p % size ∧ RQ size p q PR

/-- The writer's pending stores, applied oldest first, take memory from `m`, `offset_write` at stream position `IM`, to
`m'`, `offset_write` at `WI`; a pending byte lies outside the published window, and when a pending offset arrives all
the bytes it publishes are in place. -/
def WQ (S : List Byte) (size PM : Nat) : Mem → Nat → List WStore → Mem → Nat → Prop
  | m, IM, [], m', WI => m = m' ∧ IM = WI
  | m, IM, .byte a b :: q, m', WI =>
      (∃ k, IM ≤ k ∧ k < PM + size ∧ a = k % size) ∧ WQ S size PM (m.set a b) IM q m' WI
  | m, IM, .off v :: q, m', WI =>
      ∃ p, IM ≤ p ∧ p ≤ S.length ∧ v.toNat = p % size ∧
        (∀ k, IM ≤ k → k < p → m[k % size]? = S[k]?) ∧ WQ S size PM m p q m' WI

theorem RQ.le {size PM PR} {q} (h : RQ size PM q PR) : PM ≤ PR := by
  induction q generalizing PM with
  | nil => exact Nat.le_of_eq h
  | cons v q ih => obtain ⟨p, h1, _, h3⟩ := h; have := ih h3; omega

theorem RQ.own {size PM PR} {q} {mo : BitVec 64} (h : RQ size PM q PR) (hm : mo.toNat = PM % size) :
    (ownR mo q).toNat = PR % size := by
  induction q generalizing PM mo with
  | nil => simp only [RQ] at h; subst h; exact hm
  | cons v q ih => obtain ⟨p, _, h2, h3⟩ := h; exact ih h3 h2

theorem RQ.snoc {size PM PR PR'} {q} {v : BitVec 64} (h : RQ size PM q PR) (hv : v.toNat = PR' % size)
    (hle : PR ≤ PR') : RQ size PM (q ++ [v]) PR' := by
  induction q generalizing PM with
  | nil => simp only [RQ] at h; subst h; exact ⟨PR', hle, hv, rfl⟩
  | cons w q ih => obtain ⟨p, h1, h2, h3⟩ := h; exact ⟨p, h1, h2, ih h3⟩

section
variable {S S' : List Byte} {size PM PM' IM WI : Nat} {m m' : Mem} {q : List WStore}

theorem WQ.le (h : WQ S size PM m IM q m' WI) : IM ≤ WI := by
  induction q generalizing m IM with
  | nil => exact Nat.le_of_eq h.2
  | cons st q ih =>
    cases st with
    | byte a b => exact ih h.2
    | off v => obtain ⟨p, h1, _, _, _, h5⟩ := h; have := ih h5; omega

theorem WQ.len (h : WQ S size PM m IM q m' WI) : m'.length = m.length := by
  induction q generalizing m IM with
  | nil => rw [h.1]
  | cons st q ih =>
    cases st with
    | byte a b => rw [ih h.2]; simp
    | off v => obtain ⟨p, h1, _, _, _, h5⟩ := h; exact ih h5

theorem WQ.own {mi : BitVec 64} (h : WQ S size PM m IM q m' WI) (hm : mi.toNat = IM % size) :
    (ownW mi q).toNat = WI % size := by
  induction q generalizing m IM mi with
  | nil => rw [← h.2]; exact hm
  | cons st q ih =>
    cases st with
    | byte a b => exact ih h.2 hm
    | off v => obtain ⟨p, h1, _, h3, _, h5⟩ := h; exact ih h5 h3

theorem WQ.mono (h : WQ S size PM m IM q m' WI) (hS : S <+: S') (hP : PM ≤ PM') : WQ S' size PM' m IM q m' WI := by
  induction q generalizing m IM with
  | nil => exact h
  | cons st q ih =>
    cases st with
    | byte a b =>
      obtain ⟨⟨k, h1, h2, h3⟩, h4⟩ := h
      exact ⟨⟨k, h1, by omega, h3⟩, ih h4⟩
    | off v =>
      obtain ⟨p, h1, h2, h3, h4, h5⟩ := h
      have := hS.length_le
      refine ⟨p, h1, by omega, h3, fun k k1 k2 => ?_, ih h5⟩
      obtain ⟨T, hT⟩ := hS
      rw [← hT, List.getElem?_append_left (by omega)]
      exact h4 k k1 k2

theorem WQ.snoc_byte {a b k} (h : WQ S size PM m IM q m' WI) (h1 : WI ≤ k) (h2 : k < PM + size) (h3 : a = k % size) :
    WQ S size PM m IM (q ++ [.byte a b]) (m'.set a b) WI := by
  induction q generalizing m IM with
  | nil => obtain ⟨rfl, rfl⟩ := h; exact ⟨⟨k, h1, h2, h3⟩, rfl, rfl⟩
  | cons st q ih =>
    cases st with
    | byte a b => exact ⟨h.1, ih h.2⟩
    | off v => obtain ⟨p, h1, h2, h3, h4, h5⟩ := h; exact ⟨p, h1, h2, h3, h4, ih h5⟩

theorem WQ.snoc_off {v : BitVec 64} {p} (h : WQ S size PM m IM q m' WI) (h1 : WI ≤ p) (h2 : p ≤ S.length)
    (h3 : v.toNat = p % size) (h4 : ∀ k, WI ≤ k → k < p → m'[k % size]? = S[k]?) :
    WQ S size PM m IM (q ++ [.off v]) m' p := by
  induction q generalizing m IM with
  | nil => obtain ⟨rfl, rfl⟩ := h; exact ⟨p, h1, h2, h3, h4, rfl, rfl⟩
  | cons st q ih =>
    cases st with
    | byte a b => exact ⟨h.1, ih h.2⟩
    | off v => obtain ⟨p, h1, h2, h3, h4, h5⟩ := h; exact ⟨p, h1, h2, h3, h4, ih h5⟩

/-- a published byte is not touched by any pending store -/
theorem WQ.pending {a b} (h : WQ S size PM m IM q m' WI) (hq : WStore.byte a b ∈ q) :
    ∃ k, IM ≤ k ∧ k < PM + size ∧ a = k % size := by
  induction q generalizing m IM with
  | nil => simp at hq
  | cons st q ih =>
    cases st with
    | byte a' b' =>
      rcases List.mem_cons.1 hq with hq | hq
      · simp only [WStore.byte.injEq] at hq; obtain ⟨rfl, rfl⟩ := hq; exact h.1
      · exact ih h.2 hq
    | off v =>
      obtain ⟨p, h1, _, _, _, h5⟩ := h
      rcases List.mem_cons.1 hq with hq | hq
      · simp at hq
      · obtain ⟨k, k1, k2, k3⟩ := ih h5 hq
        exact ⟨k, by omega, k2, k3⟩
end

/-- `PM`/`IM`: stream positions of `offset_read`/`offset_write` in shared memory -/
structure Inv (s : Conf) (PM IM : Nat) : Prop where
  pos : 3 ≤ s.mem.size.toNat
  small : s.mem.size.toNat ≤ 2 ^ 63
  hlen : s.mem.size.toNat ≤ s.mem.pbuf.length
  offW : s.mem.offWrite.toNat = IM % s.mem.size.toNat
  offR : s.mem.offRead.toNat = PM % s.mem.size.toNat
  rq : RQ s.mem.size.toNat PM s.rq (consumed s.rlog)
  le : consumed s.rlog ≤ IM
  fit : (sent s.wlog).length + 1 ≤ PM + s.mem.size.toNat
  win : ∀ k, PM ≤ k → k < IM → s.mem.pbuf[k % s.mem.size.toNat]? = (sent s.wlog)[k]?
  reads : ReadsFrom (sent s.wlog) 0 s.rlog
  w : ∃ m', WQ (sent s.wlog) s.mem.size.toNat PM s.mem.pbuf IM s.wq m' (sent s.wlog).length ∧
    WOk { s.mem with pbuf := m' } (sent s.wlog) PM s.w
  r : ROk ((sent s.wlog).take IM) (consumed s.rlog) s.r

section
variable {s : Conf} {PM IM : Nat}

theorem Inv.inle (h : Inv s PM IM) : IM ≤ (sent s.wlog).length := by
  obtain ⟨m', hq, _⟩ := h.w; exact hq.le

theorem Inv.wviewOff (h : Inv s PM IM) : s.wview.offWrite.toNat = (sent s.wlog).length % s.mem.size.toNat := by
  obtain ⟨m', hq, _⟩ := h.w; exact hq.own h.offW

theorem Inv.rviewOff (h : Inv s PM IM) : s.rview.offRead.toNat = consumed s.rlog % s.mem.size.toNat := h.rq.own h.offR

theorem Inv.rInv (h : Inv s PM IM) : RingBuf.Inv s.rview := by
  have h0 := h.pos
  exact ⟨by show 0 < s.mem.size.toNat; omega, h.small,
    by rw [h.rviewOff]; exact Nat.mod_lt _ (by omega),
    by show s.mem.offWrite.toNat < s.mem.size.toNat; rw [h.offW]; exact Nat.mod_lt _ (by omega), h.hlen⟩

theorem Inv.wInv (h : Inv s PM IM) : RingBuf.Inv s.wview := by
  have h0 := h.pos
  exact ⟨by show 0 < s.mem.size.toNat; omega, h.small,
    by show s.mem.offRead.toNat < s.mem.size.toNat; rw [h.offR]; exact Nat.mod_lt _ (by omega),
    by rw [h.wviewOff]; exact Nat.mod_lt _ (by omega), h.hlen⟩

theorem Inv.availRead (h : Inv s PM IM) : (RingBuf.availRead s.rview).toNat = IM - consumed s.rlog := by
  have h0 := h.pos; have h4 := h.fit; have h5 := h.inle; have h6 := h.rq.le
  rw [RingBuf.availRead_toNat h.rInv, h.rviewOff,
    show s.rview.offWrite.toNat = IM % s.mem.size.toNat from h.offW]
  exact (mod_diff (by omega) h.le (by omega)).symm

theorem Inv.wavail (h : Inv s PM IM) : (RingBuf.availRead s.wview).toNat = (sent s.wlog).length - PM := by
  have h0 := h.pos; have h3 := h.le; have h4 := h.fit; have h5 := h.inle; have h6 := h.rq.le
  rw [RingBuf.availRead_toNat h.wInv, h.wviewOff,
    show s.wview.offRead.toNat = PM % s.mem.size.toNat from h.offR]
  exact (mod_diff (by omega) (by omega) (by omega)).symm

theorem Inv.availWrite (h : Inv s PM IM) :
    (RingBuf.availWrite s.wview).toNat = s.mem.size.toNat - 1 - ((sent s.wlog).length - PM) := by
  have h1 := RingBuf.avail_sum h.wInv
  rw [h.wavail] at h1
  have : s.wview.size.toNat = s.mem.size.toNat := rfl
  omega

theorem Inv.vis (h : Inv s PM IM) : ((sent s.wlog).take IM).length = IM := by
  have := h.inle; simp; omega

end

theorem ROk_mono {S S' : List Byte} {P : Nat} {r : RLoc} (h : ROk S P r) (hS : S <+: S') : ROk S' P r := by
  have hl := hS.length_le
  unfold ROk at h ⊢
  split at h
  · obtain ⟨r1, r2⟩ := h
    refine ⟨by omega, fun i hi => ?_⟩
    obtain ⟨r3, r4⟩ := r2 i hi
    obtain ⟨T, rfl⟩ := hS
    exact ⟨r3, by rw [List.getElem?_append_left (by omega)]; exact r4⟩
  · exact h
  · trivial

theorem WOk_mono {ring : Ring} {S : List Byte} {P P' : Nat} {w : WLoc} (h : WOk ring S P w) (hP : P ≤ P') :
    WOk ring S P' w := by
  unfold WOk at h ⊢
  split at h
  · trivial
  · exact h
  · obtain ⟨a, b, c⟩ := h
    exact ⟨a, by omega, c⟩
  · exact h

theorem take_mono {S S' : List Byte} (h : S <+: S') (n n' : Nat) (hn : n ≤ n') : S.take n <+: S'.take n' := by
  obtain ⟨T, rfl⟩ := h
  refine List.prefix_of_prefix_length_le ((List.take_prefix _ _).trans (List.prefix_append _ _))
    (List.take_prefix _ _) ?_
  simp; omega

theorem Inv.init {s : Conf} (h : Init s) : Inv s 0 0 := by
  obtain ⟨hc, h5, h6, h7, h8, h9, h10⟩ := h
  have i := RingBufSpsc.Inv.init (s := ⟨s.mem, .idle, .idle, [], []⟩) ⟨hc, rfl, rfl, rfl, rfl⟩
  refine ⟨i.pos, i.small, i.hlen, i.offW, i.offR, by rw [h6, h10]; rfl, by rw [h10]; simp [consumed], ?_,
    by intro k _ hk; omega, by rw [h10]; trivial, ⟨s.mem.pbuf, ?_, by rw [h7]; trivial⟩, by rw [h8]; trivial⟩
  · rw [h9]; exact i.fit
  · rw [h5, h9]; exact ⟨rfl, rfl⟩

set_option maxHeartbeats 1000000 in
theorem Inv.step {s t : Conf} {PM IM : Nat} (h : Inv s PM IM) (st : Step false s t) :
    ∃ PM' IM', Inv t PM' IM' ∧ PM ≤ PM' ∧ IM ≤ IM' := by
  have h2 := h.pos
  have h0 : 0 < s.mem.size.toNat := by omega
  have hsm := h.small
  obtain ⟨m', hq, hwo⟩ := h.w
  have hpm := h.rq.le
  have him := h.inle
  have hle := h.le; have hfit := h.fit
  cases st with
  | wcall src len hw hl => exact ⟨PM, IM, { h with w := ⟨m', hq, hl⟩ }, Nat.le_refl _, Nat.le_refl _⟩
  | @wrefuse src len hw hc =>
    have e : sent (s.wlog ++ [⟨src, len.toNat, 0⟩]) = sent s.wlog := by
      rw [RingBufSpsc.sent_append, RingBufSpsc.sent_single]; simp
    exact ⟨PM, IM, { h with
      fit := by rw [e]; exact h.fit
      win := by rw [e]; exact h.win
      reads := by rw [e]; exact h.reads
      w := by rw [e]; exact ⟨m', hq, trivial⟩
      r := by rw [e]; exact h.r }, Nat.le_refl _, Nat.le_refl _⟩
  | @wbegin src len hw hc =>
    rw [hw] at hwo
    refine ⟨PM, IM, { h with w := ⟨m', hq, hwo, ?_, by simp⟩ }, Nat.le_refl _, Nat.le_refl _⟩
    have ha := h.availWrite
    have : ¬ RingBuf.availWrite s.wview < len := fun x => hc (.inr x)
    rw [BitVec.lt_def] at this
    show (sent s.wlog).length + len.toNat + 1 ≤ PM + s.mem.size.toNat
    omega
  | @wcopy src len done i b hw hi hb ha =>
    rw [hw] at hwo
    obtain ⟨v1, v3, v4⟩ := hwo
    simp only at v3 v4
    have haddr : byteAddr s.mem.size s.wview.offWrite len i = ((sent s.wlog).length + i) % s.mem.size.toNat :=
      byteAddr_eq h0 h.wviewOff hi (by omega)
    refine ⟨PM, IM, { h with w := ⟨m'.set (byteAddr s.mem.size s.wview.offWrite len i) b,
      hq.snoc_byte (k := (sent s.wlog).length + i) (Nat.le_add_right _ _) (by simp only; omega) haddr, v1, v3, ?_⟩ },
      Nat.le_refl _, Nat.le_refl _⟩
    simp only [haddr]
    have hml := hq.len
    intro j hj
    rw [List.getElem?_set]
    by_cases hji : j = i
    · subst hji
      rw [if_pos rfl, if_pos (by rw [hml, ← haddr]; exact ha), hb]; exact ⟨hi, rfl⟩
    · have hj' : j ∈ done := by simpa [hji] using hj
      obtain ⟨b1, b2⟩ := v4 j hj'
      refine ⟨b1, ?_⟩
      rw [if_neg, b2]
      rcases Nat.lt_or_gt_of_ne hji with hlt | hlt
      · exact (Spsc.mod_ne (by omega) (by omega)).symm
      · exact Spsc.mod_ne (by omega) (by omega)
  | @wub src len done i hw hi hb =>
    rw [hw] at hwo
    obtain ⟨v1, v3, v4⟩ := hwo
    simp only at v3
    exfalso
    rcases hb with hb | hb
    · rw [List.getElem?_eq_none_iff] at hb; omega
    · rw [byteAddr_eq h0 h.wviewOff hi (by omega)] at hb
      have hl := h.hlen
      have : ((sent s.wlog).length + i) % s.mem.size.toNat < s.mem.size.toNat := Nat.mod_lt _ (by omega)
      omega
  | @wpub src len done hw hd =>
    rw [hw] at hwo
    obtain ⟨v1, v3, v4⟩ := hwo
    simp only at v3 v4
    have e : sent (s.wlog ++ [⟨src, len.toNat, len.toNat⟩]) = sent s.wlog ++ src.take len.toNat := by
      rw [RingBufSpsc.sent_append, RingBufSpsc.sent_single]
    have el : (sent s.wlog ++ src.take len.toNat).length = (sent s.wlog).length + len.toNat := by
      simp; omega
    refine ⟨PM, IM, { h with fit := ?_, win := ?_, reads := ?_, w := ?_, r := ?_ }, Nat.le_refl _, Nat.le_refl _⟩
      <;> simp only
    · rw [e, el]; exact v3
    · rw [e]
      intro q hq1 hq2
      rw [List.getElem?_append_left (by omega)]; exact h.win q hq1 hq2
    · rw [e]; exact RingBufSpsc.ReadsFrom_mono _ _ _ _ h.reads
    · rw [e]
      refine ⟨m', (hq.mono (List.prefix_append _ _) (Nat.le_refl _)).snoc_off (by rw [el]; omega)
        (Nat.le_refl _) ?_ ?_, trivial⟩
      · rw [el]; exact newOffset_eq h0 hsm h.wviewOff (by omega)
      · rw [el]
        intro q hq1 hq2
        rw [List.getElem?_append_right (by omega), List.getElem?_take_of_lt (by omega)]
        obtain ⟨_, b2⟩ := v4 (q - (sent s.wlog).length) (hd _ (by omega))
        rw [← b2]
        congr 2; omega
    · rw [e]
      exact ROk_mono h.r (take_mono (List.prefix_append _ _) _ _ (Nat.le_refl _))
  | wdrain q₁ x q₂ e hx =>
    have hq1 : q₁ = [] := by rcases hx with hx | ⟨hx, _⟩; exact hx; simp at hx
    subst hq1
    rw [List.nil_append] at e
    rw [e] at hq
    cases x with
    | byte a b =>
      obtain ⟨⟨k, k1, k2, k3⟩, hq⟩ := hq
      refine ⟨PM, IM, { h with hlen := ?_, win := ?_, w := ⟨m', hq, ?_⟩ }, Nat.le_refl _, Nat.le_refl _⟩
      · simp only [WStore.drain, List.length_set]; exact h.hlen
      · intro j j1 j2
        simp only [WStore.drain]
        rw [List.getElem?_set, if_neg]
        · exact h.win j j1 j2
        · rw [k3]; exact (Spsc.mod_ne (by omega) (by omega)).symm
      · exact hwo
    | off v =>
      obtain ⟨p, p1, p2, p3, p4, hq⟩ := hq
      refine ⟨PM, p, { h with offW := p3, le := by simp only; omega, win := ?_, w := ⟨m', hq, ?_⟩, r := ?_ },
        Nat.le_refl _, p1⟩
      · intro j j1 j2
        simp only [WStore.drain]
        by_cases hj : j < IM
        · exact h.win j j1 hj
        · exact p4 j (by omega) j2
      · exact hwo
      · exact ROk_mono h.r (take_mono (List.prefix_refl _) _ _ p1)
  | rcall t pk len hw => exact ⟨PM, IM, { h with r := trivial }, Nat.le_refl _, Nat.le_refl _⟩
  | @rrefuse t pk len hw hc =>
    have e : consumed (s.rlog ++ [⟨t, pk, len.toNat, 0, []⟩]) = consumed s.rlog := by
      rw [RingBufSpsc.consumed_append]; simp [consumed]
    exact ⟨PM, IM, { h with
      rq := by rw [e]; exact h.rq
      le := by rw [e]; exact h.le
      reads := by
        rw [RingBufSpsc.ReadsFrom_append]
        refine ⟨h.reads, ?_⟩
        simp [ReadsFrom]; omega
      r := trivial }, Nat.le_refl _, Nat.le_refl _⟩
  | @rbegin t pk len hw hc =>
    refine ⟨PM, IM, { h with r := ⟨?_, by simp⟩ }, Nat.le_refl _, Nat.le_refl _⟩
    have ha := h.availRead
    have : ¬ RingBuf.availRead s.rview < len := fun x => hc (.inr x)
    rw [BitVec.lt_def] at this
    show consumed s.rlog + len.toNat ≤ ((sent s.wlog).take IM).length
    rw [h.vis]
    omega
  | @rcopy pk len done tgt i b hw hi hb =>
    have hro := h.r; rw [hw] at hro
    obtain ⟨v1, v2⟩ := hro
    have v1' := v1
    rw [h.vis] at v1'
    refine ⟨PM, IM, { h with r := ⟨v1, fun j hj => ?_⟩ }, Nat.le_refl _, Nat.le_refl _⟩
    rw [byteAddr_eq h0 h.rviewOff hi (by omega), h.win _ (by omega) (by omega)] at hb
    by_cases hji : j = i
    · subst hji
      exact ⟨hi, by rw [List.getElem?_take_of_lt (show consumed s.rlog + j < IM by omega)]; simpa using hb⟩
    · have hj' : j ∈ done := by simpa [hji] using hj
      simpa [hji] using v2 j hj'
  | @rub pk len done tgt i hw hi hb =>
    have hro := h.r; rw [hw] at hro
    obtain ⟨v1, v2⟩ := hro
    rw [h.vis] at v1
    exfalso
    rw [byteAddr_eq h0 h.rviewOff hi (by omega), List.getElem?_eq_none_iff] at hb
    have hl := h.hlen
    have : (consumed s.rlog + i) % s.mem.size.toNat < s.mem.size.toNat := Nat.mod_lt _ (by omega)
    omega
  | @rpub t pk len done tgt hw hd =>
    have hro := h.r; rw [hw] at hro
    obtain ⟨v1, v2⟩ := hro
    rw [h.vis] at v1
    have hdata : (if t then (List.range len.toNat).map tgt else []) =
        (if t then ((sent s.wlog).drop (consumed s.rlog)).take len.toNat else []) := by
      cases t with
      | false => rfl
      | true =>
        simp only [if_true]
        apply List.ext_getElem?
        intro i
        by_cases hi : i < len.toNat
        · have := (v2 i (hd rfl i hi)).2
          rw [List.getElem?_take_of_lt (by omega)] at this
          rw [List.getElem?_take_of_lt hi, List.getElem?_drop, this]
          simp [hi]
        · rw [List.getElem?_eq_none (by simp; omega), List.getElem?_eq_none (by simp; omega)]
    generalize hdd : (if t then (List.range len.toNat).map tgt else []) = data at *
    have e : consumed (s.rlog ++ [⟨t, pk, len.toNat, len.toNat, data⟩])
        = consumed s.rlog + (if pk then 0 else len.toNat) := by
      rw [RingBufSpsc.consumed_append]; simp [consumed]
    refine ⟨PM, IM, { h with rq := ?_, le := ?_, reads := ?_, r := trivial }, Nat.le_refl _, Nat.le_refl _⟩
      <;> simp only
    · rw [e]
      cases pk with
      | true => simpa using h.rq
      | false =>
        simp only [Bool.false_eq_true, if_false]
        exact h.rq.snoc (newOffset_eq h0 hsm h.rviewOff (by omega)) (by omega)
    · rw [e]; split <;> omega
    · rw [RingBufSpsc.ReadsFrom_append]
      refine ⟨h.reads, .inl rfl, by simp; omega, ?_, trivial⟩
      simp only [hdata, Nat.zero_add]
  | @rdrain v q e =>
    have hr := h.rq
    rw [e] at hr
    obtain ⟨p, p1, p2, p3⟩ := hr
    refine ⟨p, IM, { h with
      offR := p2
      rq := p3
      fit := ?_
      win := ?_
      w := ⟨m', hq.mono (List.prefix_refl _) p1, ?_⟩ }, p1, Nat.le_refl _⟩
    · simp only; omega
    · intro j j1 j2; exact h.win j (by omega) j2
    · exact WOk_mono (ring := { s.mem with pbuf := m' }) hwo p1

theorem Steps.inv {s t : Conf} {PM IM : Nat} (h : Inv s PM IM) (st : Steps false s t) : ∃ PM' IM', Inv t PM' IM' := by
  induction st with
  | refl => exact ⟨PM, IM, h⟩
  | step _ st ih =>
    obtain ⟨PM, IM, i⟩ := ih
    obtain ⟨PM', IM', i', _⟩ := i.step st
    exact ⟨PM', IM', i'⟩

theorem Reach.inv {s : Conf} (h : Reach false s) : ∃ PM IM, Inv s PM IM := by
  obtain ⟨s0, h0, st⟩ := h
  exact st.inv (Inv.init h0)

end Verif.RingBufTso
