import Verif.Tso.Model
import Verif.Spsc.Props
/-! Inductive invariant of the two-thread system under total store order. -/
namespace Verif.Tso
open RingBuffer (Ring takeMin availRead availWrite)
open Spsc (WProg RProg WLoc RLoc WDone RDone byteAddr WOk ROk)
open Spsc.Spec (sent consumed ReadsFrom received)

/-- The reader's pending stores carry `out` from stream position `PM` (memory) to `PR` (the reader's own). -/
def RQ (PM : Nat) : List (BitVec 32) → Nat → Prop
  | [], PR => PM = PR
  | v :: q, PR => ∃ p, PM ≤ p ∧ v.toNat = p % 2 ^ 32 ∧ RQ p q PR

/-- The writer's pending stores, applied oldest first, take memory from `m`, `in` at stream position `IM`, to `m'`,
`in` at `WI`; a pending byte lies outside the published window, and when a pending `in` arrives all the bytes it
publishes are in place. -/
def WQ (L : List WDone) (size PM : Nat) : Mem → Nat → List WStore → Mem → Nat → Prop
  | m, IM, [], m', WI => m = m' ∧ IM = WI
  | m, IM, .byte a b :: q, m', WI =>
      (∃ k, IM ≤ k ∧ k < PM + size ∧ a = k % size) ∧ WQ L size PM (m.set a b) IM q m' WI
  | m, IM, .inp v :: q, m', WI =>
      ∃ p, IM ≤ p ∧ (∃ l, l <+: L ∧ (sent l).length = p) ∧ v.toNat = p % 2 ^ 32 ∧
        (∀ k, IM ≤ k → k < p → m[k % size]? = (sent L)[k]?) ∧ WQ L size PM m p q m' WI

theorem sent_prefix {l L : List WDone} (h : l <+: L) : sent l <+: sent L := by
  obtain ⟨T, rfl⟩ := h; rw [Spsc.sent_append]; exact List.prefix_append _ _

theorem RQ.le {PM PR} {q} (h : RQ PM q PR) : PM ≤ PR := by
  induction q generalizing PM with
  | nil => exact Nat.le_of_eq h
  | cons v q ih => obtain ⟨p, h1, _, h3⟩ := h; have := ih h3; omega

theorem RQ.own {PM PR} {q} {mo : BitVec 32} (h : RQ PM q PR) (hm : mo.toNat = PM % 2 ^ 32) :
    (ownOut mo q).toNat = PR % 2 ^ 32 := by
  induction q generalizing PM mo with
  | nil => simp only [RQ] at h; subst h; exact hm
  | cons v q ih => obtain ⟨p, _, h2, h3⟩ := h; exact ih h3 h2

theorem RQ.snoc {PM PR PR'} {q} {v : BitVec 32} (h : RQ PM q PR) (hv : v.toNat = PR' % 2 ^ 32) (hle : PR ≤ PR') :
    RQ PM (q ++ [v]) PR' := by
  induction q generalizing PM with
  | nil => simp only [RQ] at h; subst h; exact ⟨PR', hle, hv, rfl⟩
  | cons w q ih => obtain ⟨p, h1, h2, h3⟩ := h; exact ⟨p, h1, h2, ih h3⟩

section
variable {L L' : List WDone} {size PM PM' IM WI : Nat} {m m' : Mem} {q : List WStore}

theorem WQ.le (h : WQ L size PM m IM q m' WI) : IM ≤ WI := by
  induction q generalizing m IM with
  | nil => exact Nat.le_of_eq h.2
  | cons st q ih =>
    cases st with
    | byte a b => exact ih h.2
    | inp v => obtain ⟨p, h1, _, _, _, h5⟩ := h; have := ih h5; omega

theorem WQ.len (h : WQ L size PM m IM q m' WI) : m'.length = m.length := by
  induction q generalizing m IM with
  | nil => rw [h.1]
  | cons st q ih =>
    cases st with
    | byte a b => rw [ih h.2]; simp
    | inp v => obtain ⟨p, h1, _, _, _, h5⟩ := h; exact ih h5

theorem WQ.own {mi : BitVec 32} (h : WQ L size PM m IM q m' WI) (hm : mi.toNat = IM % 2 ^ 32) :
    (ownIn mi q).toNat = WI % 2 ^ 32 := by
  induction q generalizing m IM mi with
  | nil => rw [← h.2]; exact hm
  | cons st q ih =>
    cases st with
    | byte a b => exact ih h.2 hm
    | inp v => obtain ⟨p, h1, _, h3, _, h5⟩ := h; exact ih h5 h3

theorem WQ.mono (h : WQ L size PM m IM q m' WI) (hS : L <+: L') (hP : PM ≤ PM') : WQ L' size PM' m IM q m' WI := by
  induction q generalizing m IM with
  | nil => exact h
  | cons st q ih =>
    cases st with
    | byte a b =>
      obtain ⟨⟨k, h1, h2, h3⟩, h4⟩ := h
      exact ⟨⟨k, h1, by omega, h3⟩, ih h4⟩
    | inp v =>
      obtain ⟨p, h1, h2, h3, h4, h5⟩ := h
      obtain ⟨l, l1, l2⟩ := h2
      refine ⟨p, h1, ⟨l, l1.trans hS, l2⟩, h3, fun k k1 k2 => ?_, ih h5⟩
      obtain ⟨T, hT⟩ := sent_prefix hS
      have := (sent_prefix l1).length_le
      rw [← hT, List.getElem?_append_left (by omega)]
      exact h4 k k1 k2

theorem WQ.snoc_byte {a b k} (h : WQ L size PM m IM q m' WI) (h1 : WI ≤ k) (h2 : k < PM + size) (h3 : a = k % size) :
    WQ L size PM m IM (q ++ [.byte a b]) (m'.set a b) WI := by
  induction q generalizing m IM with
  | nil => obtain ⟨rfl, rfl⟩ := h; exact ⟨⟨k, h1, h2, h3⟩, rfl, rfl⟩
  | cons st q ih =>
    cases st with
    | byte a b => exact ⟨h.1, ih h.2⟩
    | inp v => obtain ⟨p, h1, h2, h3, h4, h5⟩ := h; exact ⟨p, h1, h2, h3, h4, ih h5⟩

theorem WQ.snoc_inp {v : BitVec 32} {p} (h : WQ L size PM m IM q m' WI) (h1 : WI ≤ p)
    (h2 : ∃ l, l <+: L ∧ (sent l).length = p)
    (h3 : v.toNat = p % 2 ^ 32) (h4 : ∀ k, WI ≤ k → k < p → m'[k % size]? = (sent L)[k]?) :
    WQ L size PM m IM (q ++ [.inp v]) m' p := by
  induction q generalizing m IM with
  | nil => obtain ⟨rfl, rfl⟩ := h; exact ⟨p, h1, h2, h3, h4, rfl, rfl⟩
  | cons st q ih =>
    cases st with
    | byte a b => exact ⟨h.1, ih h.2⟩
    | inp v => obtain ⟨p, h1, h2, h3, h4, h5⟩ := h; exact ⟨p, h1, h2, h3, h4, ih h5⟩

/-- a published byte is not touched by any pending store -/
theorem WQ.pending {a b} (h : WQ L size PM m IM q m' WI) (hq : WStore.byte a b ∈ q) :
    ∃ k, IM ≤ k ∧ k < PM + size ∧ a = k % size := by
  induction q generalizing m IM with
  | nil => simp at hq
  | cons st q ih =>
    cases st with
    | byte a' b' =>
      rcases List.mem_cons.1 hq with hq | hq
      · simp only [WStore.byte.injEq] at hq; obtain ⟨rfl, rfl⟩ := hq; exact h.1
      · exact ih h.2 hq
    | inp v =>
      obtain ⟨p, h1, _, _, _, h5⟩ := h
      rcases List.mem_cons.1 hq with hq | hq
      · simp at hq
      · obtain ⟨k, k1, k2, k3⟩ := ih h5 hq
        exact ⟨k, by omega, k2, k3⟩
end

variable {CW RW CR RR : Type}

/-- `PM`/`IM`: stream positions of `out`/`in` in shared memory -/
structure Inv (s : Conf CW RW CR RR) (PM IM : Nat) : Prop where
  pow : ∃ k, 1 ≤ k ∧ k ≤ 31 ∧ s.mem.size.toNat = 2 ^ k
  hlen : s.mem.size.toNat ≤ s.mem.buf.length
  inp : s.mem.inp.toNat = IM % 2 ^ 32
  out : s.mem.out.toNat = PM % 2 ^ 32
  rq : RQ PM s.rq (consumed s.rlog)
  le : consumed s.rlog ≤ IM
  fit : (sent s.wlog).length ≤ PM + s.mem.size.toNat
  win : ∀ k, PM ≤ k → k < IM → s.mem.buf[k % s.mem.size.toNat]? = (sent s.wlog)[k]?
  reads : ReadsFrom (sent s.wlog) 0 s.rlog
  bd : ∃ l, l <+: s.wlog ∧ (sent l).length = IM
  w : ∃ m', WQ s.wlog s.mem.size.toNat PM s.mem.buf IM s.wq m' (sent s.wlog).length ∧
    WOk { s.mem with buf := m' } (sent s.wlog) PM s.w
  r : ROk ((sent s.wlog).take IM) (consumed s.rlog) s.r

section
variable {s : Conf CW RW CR RR} {PM IM : Nat}

theorem Inv.inle (h : Inv s PM IM) : IM ≤ (sent s.wlog).length := by
  obtain ⟨m', hq, _⟩ := h.w; exact hq.le

theorem Inv.small (h : Inv s PM IM) : s.mem.size.toNat ≤ 2 ^ 31 := by
  obtain ⟨k, _, k2, e⟩ := h.pow
  rw [e]; exact Nat.pow_le_pow_right (by omega) k2

theorem Inv.wviewIn (h : Inv s PM IM) : s.wview.inp.toNat = (sent s.wlog).length % 2 ^ 32 := by
  obtain ⟨m', hq, _⟩ := h.w; exact hq.own h.inp

theorem Inv.rviewOut (h : Inv s PM IM) : s.rview.out.toNat = consumed s.rlog % 2 ^ 32 := h.rq.own h.out

theorem Inv.availRead (h : Inv s PM IM) : (availRead s.rview).toNat = IM - consumed s.rlog := by
  have h1 := h.inp; have h2 := h.rviewOut; have h3 := h.le; have h4 := h.fit; have h5 := h.inle; have h6 := h.rq.le
  have h7 := h.small
  unfold RingBuffer.availRead
  rw [BitVec.toNat_sub, h2]
  have : s.rview.inp = s.mem.inp := rfl
  rw [this, h1]
  omega

theorem Inv.rInv (h : Inv s PM IM) : RingBuffer.Inv s.rview := by
  have h1 := h.availRead; have h4 := h.fit; have h5 := h.inle; have h6 := h.rq.le
  refine ⟨h.pow, ?_, h.hlen⟩
  unfold RingBuffer.availRead at h1
  show _ ≤ s.mem.size.toNat
  omega

theorem Inv.wavail (h : Inv s PM IM) : (RingBuffer.availRead s.wview).toNat = (sent s.wlog).length - PM := by
  have h1 := h.wviewIn; have h2 := h.out; have h3 := h.le; have h4 := h.fit; have h5 := h.inle; have h6 := h.rq.le
  have h7 := h.small
  unfold RingBuffer.availRead
  rw [BitVec.toNat_sub, h1]
  have : s.wview.out = s.mem.out := rfl
  rw [this, h2]
  omega

theorem Inv.wInv (h : Inv s PM IM) : RingBuffer.Inv s.wview := by
  have h1 := h.wavail; have h4 := h.fit
  refine ⟨h.pow, ?_, h.hlen⟩
  unfold RingBuffer.availRead at h1
  show _ ≤ s.mem.size.toNat
  omega

theorem Inv.availWrite (h : Inv s PM IM) :
    (availWrite s.wview).toNat = s.mem.size.toNat - ((sent s.wlog).length - PM) := by
  rw [RingBuffer.availWrite_toNat h.wInv, h.wavail]; rfl

theorem Inv.vis (h : Inv s PM IM) : ((sent s.wlog).take IM).length = IM := by
  have := h.inle; simp; omega

end

theorem ROk_mono {S S' : List Byte} {P : Nat} {r : RLoc CR RR} (h : ROk S P r) (hS : S <+: S') : ROk S' P r := by
  have hl := hS.length_le
  unfold ROk at h ⊢
  split at h
  · obtain ⟨r0, r1, r2⟩ := h
    refine ⟨r0, by omega, fun i hi => ?_⟩
    obtain ⟨r3, r4⟩ := r2 i hi
    obtain ⟨T, rfl⟩ := hS
    exact ⟨r3, by rw [List.getElem?_append_left (by omega)]; exact r4⟩
  · exact h
  · trivial

theorem WOk_mono {ring : Ring} {S : List Byte} {P P' : Nat} {w : WLoc CW RW} (h : WOk ring S P w) (hP : P ≤ P') :
    WOk ring S P' w := by
  unfold WOk at h ⊢
  split at h
  · trivial
  · exact h
  · obtain ⟨a, b, c, d, e⟩ := h
    exact ⟨a, b, c, by omega, e⟩
  · exact h
  · trivial

theorem Inv.init {s : Conf CW RW CR RR} (h : Init s) : Inv s 0 0 := by
  obtain ⟨h1, h2, h3, h4, h5, h6, h7, h8, h9, h10, _, _⟩ := h
  refine ⟨h3, h4, by rw [h1]; rfl, by rw [h2]; rfl, by rw [h6, h10]; rfl, by rw [h10]; simp [consumed],
    by rw [h9]; simp [sent], by intro k _ hk; omega, by rw [h10]; trivial, ⟨[], List.nil_prefix, rfl⟩, ⟨s.mem.buf, ?_, by rw [h7]; trivial⟩,
    by rw [h8]; trivial⟩
  rw [h5, h9]; exact ⟨rfl, rfl⟩

theorem take_mono {S S' : List Byte} (h : S <+: S') (n n' : Nat) (hn : n ≤ n') : S.take n <+: S'.take n' := by
  obtain ⟨T, rfl⟩ := h
  refine List.prefix_of_prefix_length_le ((List.take_prefix _ _).trans (List.prefix_append _ _))
    (List.take_prefix _ _) ?_
  simp; omega

set_option maxHeartbeats 1000000 in
theorem Inv.step {bodyW : CW → WProg RW} {bodyR : CR → RProg RR} (hv : ∀ c, (bodyW c).Valid)
    {s t : Conf CW RW CR RR} {PM IM : Nat} (h : Inv s PM IM) (st : Step false bodyW bodyR s t) :
    ∃ PM' IM', Inv t PM' IM' ∧ PM ≤ PM' ∧ IM ≤ IM' ∧ (s.mem.size = t.mem.size) := by
  have hsz := h.pow
  have h2 := h.wInv.pos
  have h2' : 2 ≤ s.mem.size.toNat := h2
  obtain ⟨m', hq, hwo⟩ := h.w
  have hpm := h.rq.le
  have him := h.inle
  have hle := h.le; have hfit := h.fit
  cases st with
  | wcall c hw => exact ⟨PM, IM, { h with w := ⟨m', hq, hv c⟩ }, by simp⟩
  | wret hw => exact ⟨PM, IM, { h with w := ⟨m', hq, trivial⟩ }, by simp⟩
  | wabort hw => exact ⟨PM, IM, { h with w := ⟨m', hq, trivial⟩ }, by simp⟩
  | wavail hw =>
    rw [hw] at hwo
    cases hwo with
    | avail hk => exact ⟨PM, IM, { h with w := ⟨m', hq, hk _⟩ }, by simp⟩
  | wskip hw hc =>
    rw [hw] at hwo
    cases hwo with
    | write hl hk =>
      have e : ∀ src len, sent (s.wlog ++ [⟨src, len, 0⟩]) = sent s.wlog := by
        intro src len; rw [Spsc.sent_append, Spsc.sent_single]; simp
      exact ⟨PM, IM, { h with
        fit := by rw [e]; exact h.fit
        win := by rw [e]; exact h.win
        reads := by rw [e]; exact h.reads
        bd := by obtain ⟨l, l1, l2⟩ := h.bd; exact ⟨l, l1.trans (List.prefix_append _ _), l2⟩
        w := by rw [e]; exact ⟨m', hq.mono (List.prefix_append _ _) (Nat.le_refl _), hk _⟩
        r := by rw [e]; exact h.r }, by simp⟩
  | wbegin hw hc =>
    rw [hw] at hwo
    cases hwo with
    | write hl hk =>
      refine ⟨PM, IM, { h with w := ⟨m', hq, hk, hl, ?_, ?_, by simp⟩ }, by simp⟩
      · rw [RingBuffer.takeMin_toNat]; omega
      · rw [RingBuffer.takeMin_toNat, h.availWrite]
        show (sent s.wlog).length + _ ≤ PM + s.mem.size.toNat
        omega
  | @wcopy c src len k n done i b hw hi hb ha =>
    rw [hw] at hwo
    obtain ⟨v, v1, v2, v3, v4⟩ := hwo
    simp only at v3 v4
    have haddr : byteAddr s.mem.size s.wview.inp n i = ((sent s.wlog).length + i) % s.mem.size.toNat :=
      Spsc.byteAddr_eq h.wInv s.wview.inp n _ i h.wviewIn hi (show n.toNat ≤ s.mem.size.toNat by omega)
    refine ⟨PM, IM, { h with w := ⟨m'.set (byteAddr s.mem.size s.wview.inp n i) b,
      hq.snoc_byte (k := (sent s.wlog).length + i) (Nat.le_add_right _ _) (by simp only; omega) haddr, v, v1, v2, v3, ?_⟩ }, by simp⟩
    simp only [haddr]
    have hml := hq.len
    intro j hj
    rw [List.getElem?_set]
    by_cases hji : j = i
    · subst hji
      rw [if_pos rfl, if_pos (by rw [hml, ← haddr]; exact ha), hb]; exact ⟨hi, rfl⟩
    · have hj' : j ∈ done := by simpa [hji] using hj
      obtain ⟨b1, b2⟩ := v4 j hj'
      refine ⟨b1, ?_⟩
      rw [if_neg, b2]
      rcases Nat.lt_or_gt_of_ne hji with hlt | hlt
      · exact (Spsc.mod_ne (by omega) (by omega)).symm
      · exact Spsc.mod_ne (by omega) (by omega)
  | @wub c src len k n done i hw hi hb =>
    rw [hw] at hwo
    obtain ⟨v, v1, v2, v3, v4⟩ := hwo
    simp only at v3
    exfalso
    rcases hb with hb | hb
    · rw [List.getElem?_eq_none_iff] at hb; omega
    · have haddr : byteAddr s.mem.size s.wview.inp n i = ((sent s.wlog).length + i) % s.mem.size.toNat :=
        Spsc.byteAddr_eq h.wInv s.wview.inp n _ i h.wviewIn hi (show n.toNat ≤ s.mem.size.toNat by omega)
      rw [haddr] at hb
      have hl := h.hlen
      have : ((sent s.wlog).length + i) % s.mem.size.toNat < s.mem.size.toNat := Nat.mod_lt _ (by omega)
      omega
  | @wpub c src len k n done hw hd =>
    rw [hw] at hwo
    obtain ⟨v, v1, v2, v3, v4⟩ := hwo
    simp only at v3 v4
    have e : sent (s.wlog ++ [⟨src, len.toNat, n.toNat⟩]) = sent s.wlog ++ src.take n.toNat := by
      rw [Spsc.sent_append, Spsc.sent_single]
    have el : (sent s.wlog ++ src.take n.toNat).length = (sent s.wlog).length + n.toNat := by
      simp; omega
    refine ⟨PM, IM, { h with fit := ?_, win := ?_, reads := ?_, bd := ?_, w := ?_, r := ?_ }, by simp⟩ <;> simp only
    · rw [e, el]; exact v3
    · rw [e]
      intro q hq1 hq2
      rw [List.getElem?_append_left (by omega)]; exact h.win q hq1 hq2
    · rw [e]; exact Spsc.ReadsFrom_mono _ _ _ _ h.reads
    · obtain ⟨l, l1, l2⟩ := h.bd; exact ⟨l, l1.trans (List.prefix_append _ _), l2⟩
    · rw [e]
      refine ⟨m', (hq.mono (List.prefix_append _ _) (Nat.le_refl _)).snoc_inp (by rw [el]; omega)
        ⟨_, List.prefix_refl _, by rw [e]⟩ ?_ ?_, v n⟩
      · rw [el, BitVec.toNat_add, h.wviewIn]; omega
      · rw [e, el]
        intro q hq1 hq2
        rw [List.getElem?_append_right (by omega), List.getElem?_take_of_lt (by omega)]
        obtain ⟨_, b2⟩ := v4 (q - (sent s.wlog).length) (hd _ (by omega))
        rw [← b2]
        congr 2; omega
    · rw [e]
      exact ROk_mono h.r (take_mono (List.prefix_append _ _) _ _ (Nat.le_refl _))
  | wdrain q₁ x q₂ e hx =>
    have hq1 : q₁ = [] := by rcases hx with hx | ⟨hx, _⟩; exact hx; simp at hx
    subst hq1
    rw [List.nil_append] at e
    rw [e] at hq
    cases x with
    | byte a b =>
      obtain ⟨⟨k, k1, k2, k3⟩, hq⟩ := hq
      refine ⟨PM, IM, { h with hlen := ?_, win := ?_, w := ⟨m', hq, ?_⟩ }, by simp [WStore.drain]⟩
      · simp only [WStore.drain, List.length_set]; exact h.hlen
      · intro j j1 j2
        simp only [WStore.drain]
        rw [List.getElem?_set, if_neg]
        · exact h.win j j1 j2
        · rw [k3]; exact (Spsc.mod_ne (by omega) (by omega)).symm
      · exact hwo
    | inp v =>
      obtain ⟨p, p1, p2, p3, p4, hq⟩ := hq
      refine ⟨PM, p, { h with inp := p3, le := by simp only; omega, win := ?_, bd := p2, w := ⟨m', hq, ?_⟩, r := ?_ }, by simp [WStore.drain]; exact p1⟩
      · intro j j1 j2
        simp only [WStore.drain]
        by_cases hj : j < IM
        · exact h.win j j1 hj
        · exact p4 j (by omega) j2
      · exact hwo
      · exact ROk_mono h.r (take_mono (List.prefix_refl _) _ _ p1)
  | rcall c hw => exact ⟨PM, IM, { h with r := trivial }, by simp⟩
  | rret hw => exact ⟨PM, IM, { h with r := trivial }, by simp⟩
  | rabort hw => exact ⟨PM, IM, { h with r := trivial }, by simp⟩
  | ravail hw => exact ⟨PM, IM, { h with r := trivial }, by simp⟩
  | @rskip c t pk len k hw hc =>
    have e : consumed (s.rlog ++ [⟨t, pk, len.toNat, 0, []⟩]) = consumed s.rlog := by
      rw [Spsc.consumed_append]; simp [consumed]
    exact ⟨PM, IM, { h with
      rq := by rw [e]; exact h.rq
      le := by rw [e]; exact h.le
      reads := by
        rw [Spsc.ReadsFrom_append]
        refine ⟨h.reads, ?_⟩
        simp [ReadsFrom]; omega
      r := trivial }, by simp⟩
  | @rbegin c t pk len k hw hc =>
    refine ⟨PM, IM, { h with r := ⟨?_, ?_, by simp⟩ }, by simp⟩
    · rw [RingBuffer.takeMin_toNat]; omega
    · rw [RingBuffer.takeMin_toNat, h.availRead]
      show consumed s.rlog + _ ≤ ((sent s.wlog).take IM).length
      rw [h.vis]
      omega
  | @rcopy c pk len k n done tgt i b hw hi hb =>
    have hro := h.r; rw [hw] at hro
    obtain ⟨v0, v1, v2⟩ := hro
    have v1' := v1
    rw [h.vis] at v1'
    refine ⟨PM, IM, { h with r := ⟨v0, v1, fun j hj => ?_⟩ }, by simp⟩
    have haddr : byteAddr s.mem.size s.rview.out n i = (consumed s.rlog + i) % s.mem.size.toNat :=
      Spsc.byteAddr_eq h.rInv s.rview.out n _ i h.rviewOut hi (show n.toNat ≤ s.mem.size.toNat by omega)
    rw [haddr, h.win _ (by omega) (by omega)] at hb
    by_cases hji : j = i
    · subst hji
      exact ⟨hi, by rw [List.getElem?_take_of_lt (show consumed s.rlog + j < IM by omega)]; simpa using hb⟩
    · have hj' : j ∈ done := by simpa [hji] using hj
      simpa [hji] using v2 j hj'
  | @rub c pk len k n done tgt i hw hi hb =>
    have hro := h.r; rw [hw] at hro
    obtain ⟨v0, v1, v2⟩ := hro
    rw [h.vis] at v1
    exfalso
    have haddr : byteAddr s.mem.size s.rview.out n i = (consumed s.rlog + i) % s.mem.size.toNat :=
      Spsc.byteAddr_eq h.rInv s.rview.out n _ i h.rviewOut hi (show n.toNat ≤ s.mem.size.toNat by omega)
    rw [haddr, List.getElem?_eq_none_iff] at hb
    have hl := h.hlen
    have : (consumed s.rlog + i) % s.mem.size.toNat < s.mem.size.toNat := Nat.mod_lt _ (by omega)
    omega
  | @rpub c t pk len k n done tgt hw hd =>
    have hro := h.r; rw [hw] at hro
    obtain ⟨v0, v1, v2⟩ := hro
    rw [h.vis] at v1
    have hdata : (if t then (List.range n.toNat).map tgt else []) =
        (if t then ((sent s.wlog).drop (consumed s.rlog)).take n.toNat else []) := by
      cases t with
      | false => rfl
      | true =>
        simp only [if_true]
        apply List.ext_getElem?
        intro i
        by_cases hi : i < n.toNat
        · have := (v2 i (hd rfl i hi)).2
          rw [List.getElem?_take_of_lt (by omega)] at this
          rw [List.getElem?_take_of_lt hi, List.getElem?_drop, this]
          simp [hi]
        · rw [List.getElem?_eq_none (by simp; omega), List.getElem?_eq_none (by simp; omega)]
    generalize hdd : (if t then (List.range n.toNat).map tgt else []) = data at *
    have e : consumed (s.rlog ++ [⟨t, pk, len.toNat, n.toNat, data⟩]) = consumed s.rlog + (if pk then 0 else n.toNat) := by
      rw [Spsc.consumed_append]; simp [consumed]
    refine ⟨PM, IM, { h with rq := ?_, le := ?_, reads := ?_, r := trivial }, by simp⟩ <;> simp only
    · rw [e]
      cases pk with
      | true => simpa using h.rq
      | false =>
        simp only [Bool.false_eq_true, if_false]
        exact h.rq.snoc (by rw [BitVec.toNat_add, h.rviewOut]; omega) (by omega)
    · rw [e]; split <;> omega
    · rw [Spsc.ReadsFrom_append]
      refine ⟨h.reads, v0, by simp; omega, ?_, trivial⟩
      simp only [hdata, Nat.zero_add]
  | @rdrain v q e =>
    have hr := h.rq
    rw [e] at hr
    obtain ⟨p, p1, p2, p3⟩ := hr
    refine ⟨p, IM, { h with out := p2, rq := p3, fit := ?_, win := ?_, w := ⟨m', hq.mono (List.prefix_refl _) p1, ?_⟩ },
      by simp; exact p1⟩
    · simp only; omega
    · intro j j1 j2; exact h.win j (by omega) j2
    · exact WOk_mono (ring := { s.mem with buf := m' }) hwo p1

theorem Reach.inv {bodyW : CW → WProg RW} {bodyR : CR → RProg RR} (hv : ∀ c, (bodyW c).Valid)
    {s : Conf CW RW CR RR} (h : Reach false bodyW bodyR s) : ∃ PM IM, Inv s PM IM := by
  induction h with
  | init h => exact ⟨0, 0, Inv.init h⟩
  | step _ st ih =>
    obtain ⟨PM, IM, i⟩ := ih
    obtain ⟨PM', IM', i', _⟩ := i.step hv st
    exact ⟨PM', IM', i'⟩

end Verif.Tso
