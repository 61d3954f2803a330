import Verif.RingBufSpsc.Spec
import Verif.RingBuf.Lemmas
import Verif.Spsc.Lemmas
/-! Inductive invariant of the two-thread system. -/
namespace Verif.RingBufSpsc
open RingBuf (Ring takeMin)
open Spec (sent consumed ReadsFrom received inFlight)

theorem sent_append (a b : List WDone) : sent (a ++ b) = sent a ++ sent b := by simp [sent]
theorem sent_single (d : WDone) : sent [d] = d.src.take d.ret := by simp [sent]

theorem consumed_append (a b : List RDone) : consumed (a ++ b) = consumed a + consumed b := by
  induction a with
  | nil => simp [consumed]
  | cons d ds ih => simp [consumed, ih]; omega

theorem ReadsFrom_append (S : List Byte) (p : Nat) (a b : List RDone) :
    ReadsFrom S p (a ++ b) ↔ ReadsFrom S p a ∧ ReadsFrom S (p + consumed a) b := by
  induction a generalizing p with
  | nil => simp [ReadsFrom, consumed]
  | cons d ds ih =>
    simp only [List.cons_append, ReadsFrom, consumed, ih]
    have : (if d.peek = true then p else p + d.ret) + consumed ds
        = p + ((if d.peek = true then 0 else d.ret) + consumed ds) := by
      split <;> omega
    rw [this]
    constructor
    · rintro ⟨a, b, c, d, e⟩; exact ⟨⟨a, b, c, d⟩, e⟩
    · rintro ⟨⟨a, b, c, d⟩, e⟩; exact ⟨a, b, c, d, e⟩

theorem ReadsFrom_mono (S T : List Byte) (p : Nat) (a : List RDone) (h : ReadsFrom S p a) : ReadsFrom (S ++ T) p a := by
  induction a generalizing p with
  | nil => trivial
  | cons d ds ih =>
    obtain ⟨h1, h2, h3, h4⟩ := h
    refine ⟨h1, by simp; omega, ?_, ih _ h4⟩
    rw [h3]
    split
    · rw [List.drop_append_of_le_length (by omega), List.take_append_of_le_length (by simp; omega)]
    · rfl

/-- what the invariant says about the writer -/
def WOk (ring : Ring) (S : List Byte) (P : Nat) : WLoc → Prop
  | .idle => True
  | .enter src len => len.toNat ≤ src.length
  | .copy src len done => len.toNat ≤ src.length ∧ S.length + len.toNat + 1 ≤ P + ring.size.toNat ∧
      ∀ i ∈ done, i < len.toNat ∧ ring.pbuf[(S.length + i) % ring.size.toNat]? = src[i]?
  | .ub => False

/-- what the invariant says about the reader -/
def ROk (S : List Byte) (P : Nat) : RLoc → Prop
  | .copy _ _ len done tgt => P + len.toNat ≤ S.length ∧ ∀ i ∈ done, i < len.toNat ∧ S[P + i]? = some (tgt i)
  | .ub => False
  | _ => True

structure Inv (s : Conf) : Prop where
  pos : 3 ≤ s.ring.size.toNat
  small : s.ring.size.toNat ≤ 2 ^ 63
  hlen : s.ring.size.toNat ≤ s.ring.pbuf.length
  offW : s.ring.offWrite.toNat = (sent s.wlog).length % s.ring.size.toNat
  offR : s.ring.offRead.toNat = consumed s.rlog % s.ring.size.toNat
  le : consumed s.rlog ≤ (sent s.wlog).length
  fit : (sent s.wlog).length + 1 ≤ consumed s.rlog + s.ring.size.toNat
  win : ∀ k, consumed s.rlog ≤ k → k < (sent s.wlog).length → s.ring.pbuf[k % s.ring.size.toNat]? = (sent s.wlog)[k]?
  reads : ReadsFrom (sent s.wlog) 0 s.rlog
  w : WOk s.ring (sent s.wlog) (consumed s.rlog) s.w
  r : ROk (sent s.wlog) (consumed s.rlog) s.r

theorem Inv.ringInv {s : Conf} (h : Inv s) : RingBuf.Inv s.ring := by
  have h0 := h.pos
  exact ⟨by omega, h.small, by rw [h.offR]; exact Nat.mod_lt _ (by omega),
    by rw [h.offW]; exact Nat.mod_lt _ (by omega), h.hlen⟩

/-- the difference of two counters less than `m` apart, from their residues -/
theorem mod_diff {a b m : Nat} (hm : 0 < m) (h1 : a ≤ b) (h2 : b < a + m) :
    b - a = if a % m ≤ b % m then b % m - a % m else m + b % m - a % m := by
  have ea := Nat.div_add_mod a m
  have eb := Nat.div_add_mod b m
  have la := Nat.mod_lt a hm
  have lb := Nat.mod_lt b hm
  have hd : b / m = a / m ∨ b / m = a / m + 1 := by
    have h3 : a / m ≤ b / m := Nat.div_le_div_right h1
    have h4 : b / m ≤ (a + m) / m := Nat.div_le_div_right (by omega)
    rw [Nat.add_div_right _ hm] at h4
    omega
  rcases hd with e | e
  · rw [e] at eb
    rw [if_pos (by omega)]; omega
  · rw [e, Nat.mul_add, Nat.mul_one] at eb
    rw [if_neg (by omega)]; omega

theorem Inv.availRead {s : Conf} (h : Inv s) :
    (RingBuf.availRead s.ring).toNat = (sent s.wlog).length - consumed s.rlog := by
  rw [RingBuf.availRead_toNat h.ringInv, h.offR, h.offW]
  have := h.pos; have := h.fit
  exact (mod_diff (by omega) h.le (by omega)).symm

theorem Inv.availWrite {s : Conf} (h : Inv s) :
    (RingBuf.availWrite s.ring).toNat = s.ring.size.toNat - 1 - ((sent s.wlog).length - consumed s.rlog) := by
  have h1 := RingBuf.avail_sum h.ringInv
  rw [h.availRead] at h1
  omega

theorem byteAddr_eq {size off len : BitVec 64} {P i : Nat} (h0 : 0 < size.toNat) (hp : off.toNat = P % size.toNat)
    (hi : i < len.toNat) (hn : len.toNat ≤ size.toNat) :
    byteAddr size off len i = (P + i) % size.toNat := by
  have hlt : P % size.toNat < size.toNat := Nat.mod_lt _ (by omega)
  unfold byteAddr
  simp only []
  have hf : (takeMin len (size - off)).toNat = min len.toNat (size.toNat - P % size.toNat) := by
    rw [RingBuf.takeMin_toNat, BitVec.toNat_sub, hp]; have := size.isLt; omega
  rw [hf, hp, ← Nat.mod_add_mod]
  clear hp hf
  generalize P % size.toNat = a at *
  split
  · rw [Nat.mod_eq_of_lt (by omega)]
  · rw [Nat.mod_eq_sub_mod (by omega), Nat.mod_eq_of_lt (by omega)]; omega

theorem newOffset_eq {size off len : BitVec 64} {P : Nat} (h0 : 0 < size.toNat) (hs : size.toNat ≤ 2 ^ 63)
    (hp : off.toNat = P % size.toNat) (hn : len.toNat < size.toNat) :
    (newOffset size off len).toNat = (P + len.toNat) % size.toNat := by
  have hlt : P % size.toNat < size.toNat := Nat.mod_lt _ (by omega)
  unfold newOffset
  simp only []
  have hf : (takeMin len (size - off)).toNat = min len.toNat (size.toNat - P % size.toNat) := by
    rw [RingBuf.takeMin_toNat, BitVec.toNat_sub, hp]; have := size.isLt; omega
  have hsec : (len - takeMin len (size - off)).toNat = len.toNat - min len.toNat (size.toNat - P % size.toNat) := by
    rw [BitVec.toNat_sub, hf]; have := len.isLt; omega
  have hsum : (off + takeMin len (size - off)).toNat = P % size.toNat + min len.toNat (size.toNat - P % size.toNat) := by
    rw [BitVec.toNat_add, hf, hp]; omega
  rw [← Nat.mod_add_mod]
  clear hp hf
  generalize P % size.toNat = a at *
  by_cases hc : len - takeMin len (size - off) = 0#64
  · rw [if_neg (by simpa using hc)]
    have hz : (len - takeMin len (size - off)).toNat = 0 := by rw [hc]; rfl
    by_cases hd : off + takeMin len (size - off) = size
    · rw [if_pos hd]
      have : (off + takeMin len (size - off)).toNat = size.toNat := by rw [hd]
      rw [show a + len.toNat = size.toNat by omega, Nat.mod_self]; rfl
    · rw [if_neg hd, hsum]
      have : (off + takeMin len (size - off)).toNat ≠ size.toNat := fun e => hd (BitVec.eq_of_toNat_eq e)
      rw [Nat.mod_eq_of_lt (by omega)]; omega
  · rw [if_pos (by simpa using hc), hsec]
    have : (len - takeMin len (size - off)).toNat ≠ 0 := fun e => hc (BitVec.eq_of_toNat_eq e)
    rw [Nat.mod_eq_sub_mod (by omega), Nat.mod_eq_of_lt (by omega)]; omega

theorem Inv.init {s : Conf} (h : Init s) : Inv s := by
  obtain ⟨⟨mem, n, hc, h1, h2⟩, h5, h6, h7, h8⟩ := h
  have e1 : RingBuf.structSize.toNat = 40 := rfl
  have e2 : (RingBuf.structSize + 3#64).toNat = 43 := rfl
  have hn : ¬ n < RingBuf.structSize + 3#64 := by
    intro hlt; simp [RingBuf.createWithMem, hlt] at hc
  have hr : s.ring = ⟨mem.drop RingBuf.structSize.toNat, n - RingBuf.structSize, 0#64, 0#64⟩ := by
    simp only [RingBuf.createWithMem, if_neg hn, Option.some.injEq] at hc
    exact hc.symm
  rw [BitVec.lt_def, e2] at hn
  have hsz : s.ring.size.toNat = n.toNat - 40 := by
    rw [hr]; show (n - RingBuf.structSize).toNat = _
    rw [BitVec.toNat_sub, e1]; have := n.isLt; omega
  have hb : s.ring.pbuf.length = mem.length - 40 := by
    rw [hr, e1]; exact List.length_drop
  refine ⟨by omega, by omega, by omega, ?_, ?_, by rw [h8]; simp [consumed], ?_, ?_, by rw [h8]; trivial,
    by rw [h5]; trivial, by rw [h6]; trivial⟩
  · rw [hr, h7]; simp [sent]
  · rw [hr, h8]; simp [consumed]
  · rw [h7, h8]; simp only [sent, List.flatMap_nil, List.length_nil, consumed]; omega
  · intro k _ hk; rw [h7] at hk; simp [sent] at hk

theorem Inv.step {s t : Conf} (h : Inv s) (st : Step s t) : Inv t := by
  have h2 := h.pos
  have hsm := h.small
  have h0 : 0 < s.ring.size.toNat := by omega
  have hle := h.le
  have hfit := h.fit
  cases st with
  | wcall src len hw hl => exact { h with w := hl }
  | @wrefuse src len hw hc =>
    have e : sent (s.wlog ++ [⟨src, len.toNat, 0⟩]) = sent s.wlog := by
      rw [sent_append, sent_single]; simp
    exact { h with
      offW := by rw [e]; exact h.offW
      le := by rw [e]; exact h.le
      fit := by rw [e]; exact h.fit
      win := by rw [e]; exact h.win
      reads := by rw [e]; exact h.reads
      w := trivial
      r := by rw [e]; exact h.r }
  | @wbegin src len hw hc =>
    have hwo := h.w; rw [hw] at hwo
    refine { h with w := ⟨hwo, ?_, by simp⟩ }
    have ha := h.availWrite
    have : ¬ RingBuf.availWrite s.ring < len := fun x => hc (.inr x)
    rw [BitVec.lt_def] at this
    show (sent s.wlog).length + len.toNat + 1 ≤ consumed s.rlog + s.ring.size.toNat
    omega
  | @wcopy src len done i b m hw hi hb hm =>
    have hwo := h.w; rw [hw] at hwo
    obtain ⟨v1, v3, v4⟩ := hwo
    have haddr := byteAddr_eq h0 h.offW hi (by omega)
    rw [haddr] at hm
    obtain ⟨a1, a2, a3⟩ := Spsc.store_single hm
    refine { h with hlen := by simp only [a2]; exact h.hlen, win := ?_, w := ⟨v1, v3, ?_⟩ }
    · intro k hk1 hk2
      simp only at hk1 hk2
      simp only [a3]
      rw [if_neg]
      · exact h.win k hk1 hk2
      · exact Spsc.mod_ne (by omega) (by omega)
    · intro j hj
      simp only [a3]
      by_cases hji : j = i
      · subst hji; rw [if_pos rfl, hb]; exact ⟨hi, rfl⟩
      · have hj' : j ∈ done := by simpa [hji] using hj
        obtain ⟨b1, b2⟩ := v4 j hj'
        refine ⟨b1, ?_⟩
        rw [if_neg, b2]
        rcases Nat.lt_or_gt_of_ne hji with hlt | hlt
        · exact Spsc.mod_ne (by omega) (by omega)
        · exact (Spsc.mod_ne (by omega) (by omega)).symm
  | @wub src len done i hw hi hb =>
    have hwo := h.w; rw [hw] at hwo
    obtain ⟨v1, v3, v4⟩ := hwo
    exfalso
    rcases hb with hb | ⟨b, hb⟩
    · rw [List.getElem?_eq_none_iff] at hb; omega
    · rw [byteAddr_eq h0 h.offW hi (by omega)] at hb
      have hl := h.hlen
      have : ((sent s.wlog).length + i) % s.ring.size.toNat < s.ring.size.toNat := Nat.mod_lt _ (by omega)
      rw [Mem.store_eq_some (by simp; omega)] at hb
      simp at hb
  | @wpub src len done hw hd =>
    have hwo := h.w; rw [hw] at hwo
    obtain ⟨v1, v3, v4⟩ := hwo
    have e : sent (s.wlog ++ [⟨src, len.toNat, len.toNat⟩]) = sent s.wlog ++ src.take len.toNat := by
      rw [sent_append, sent_single]
    have el : (sent s.wlog ++ src.take len.toNat).length = (sent s.wlog).length + len.toNat := by
      simp; omega
    refine { h with offW := ?_, le := ?_, fit := ?_, win := ?_, reads := ?_, w := trivial, r := ?_ } <;> simp only
    · rw [e, el]; exact newOffset_eq h0 hsm h.offW (by omega)
    · rw [e, el]; omega
    · rw [e, el]; exact v3
    · rw [e, el]
      intro q hq1 hq2
      by_cases hq : q < (sent s.wlog).length
      · rw [List.getElem?_append_left hq]; exact h.win q hq1 hq
      · rw [List.getElem?_append_right (by omega), List.getElem?_take_of_lt (by omega)]
        obtain ⟨_, b2⟩ := v4 (q - (sent s.wlog).length) (hd _ (by omega))
        rw [← b2]
        congr 2; omega
    · rw [e]; exact ReadsFrom_mono _ _ _ _ h.reads
    · rw [e]
      have hr := h.r
      unfold ROk at hr ⊢
      split at hr
      · obtain ⟨r1, r2⟩ := hr
        refine ⟨by rw [el]; omega, fun i hi => ?_⟩
        obtain ⟨r3, r4⟩ := r2 i hi
        exact ⟨r3, by rw [List.getElem?_append_left (by omega)]; exact r4⟩
      · exact hr
      · trivial
  | rcall t pk len hw => exact { h with r := trivial }
  | @rrefuse t pk len hw hc =>
    have e : consumed (s.rlog ++ [⟨t, pk, len.toNat, 0, []⟩]) = consumed s.rlog := by
      rw [consumed_append]; simp [consumed]
    exact { h with
      offR := by rw [e]; exact h.offR
      le := by rw [e]; exact h.le
      fit := by rw [e]; exact h.fit
      win := by rw [e]; exact h.win
      reads := by
        rw [ReadsFrom_append]
        refine ⟨h.reads, ?_⟩
        simp [ReadsFrom]; omega
      w := by rw [e]; exact h.w
      r := trivial }
  | @rbegin t pk len hw hc =>
    refine { h with r := ⟨?_, by simp⟩ }
    have ha := h.availRead
    have : ¬ RingBuf.availRead s.ring < len := fun x => hc (.inr x)
    rw [BitVec.lt_def] at this
    show consumed s.rlog + len.toNat ≤ (sent s.wlog).length
    omega
  | @rcopy pk len done tgt i b hw hi hb =>
    have hro := h.r; rw [hw] at hro
    obtain ⟨v1, v2⟩ := hro
    refine { h with r := ⟨v1, fun j hj => ?_⟩ }
    rw [byteAddr_eq h0 h.offR hi (by omega), h.win _ (by omega) (by omega)] at hb
    by_cases hji : j = i
    · subst hji; exact ⟨hi, by simpa using hb⟩
    · have hj' : j ∈ done := by simpa [hji] using hj
      simpa [hji] using v2 j hj'
  | @rub pk len done tgt i hw hi hb =>
    have hro := h.r; rw [hw] at hro
    obtain ⟨v1, v2⟩ := hro
    exfalso
    rw [byteAddr_eq h0 h.offR hi (by omega), List.getElem?_eq_none_iff] at hb
    have hl := h.hlen
    have : (consumed s.rlog + i) % s.ring.size.toNat < s.ring.size.toNat := Nat.mod_lt _ (by omega)
    omega
  | @rpub t pk len done tgt hw hd =>
    have hro := h.r; rw [hw] at hro
    obtain ⟨v1, v2⟩ := hro
    have hdata : (if t then (List.range len.toNat).map tgt else []) =
        (if t then ((sent s.wlog).drop (consumed s.rlog)).take len.toNat else []) := by
      cases t with
      | false => rfl
      | true =>
        simp only [if_true]
        apply List.ext_getElem?
        intro i
        by_cases hi : i < len.toNat
        · have := (v2 i (hd rfl i hi)).2
          rw [List.getElem?_take_of_lt hi, List.getElem?_drop, this]
          simp [hi]
        · rw [List.getElem?_eq_none (by simp; omega), List.getElem?_eq_none (by simp; omega)]
    generalize hdd : (if t then (List.range len.toNat).map tgt else []) = data at *
    have e : consumed (s.rlog ++ [⟨t, pk, len.toNat, len.toNat, data⟩])
        = consumed s.rlog + (if pk then 0 else len.toNat) := by
      rw [consumed_append]; simp [consumed]
    refine { h with offR := ?_, le := ?_, fit := ?_, win := ?_, reads := ?_, w := ?_, r := trivial } <;> simp only
    · rw [e]
      cases pk with
      | true => simpa using h.offR
      | false =>
        simp only [Bool.false_eq_true, if_false]
        exact newOffset_eq h0 hsm h.offR (by omega)
    · rw [e]; split <;> omega
    · rw [e]
      show _ ≤ _ + s.ring.size.toNat
      omega
    · rw [e]
      intro q hq1 hq2
      exact h.win q (by omega) hq2
    · rw [ReadsFrom_append]
      refine ⟨h.reads, .inl rfl, by simpa using v1, ?_, trivial⟩
      simp only [hdata, Nat.zero_add]
    · rw [e]
      have hwo := h.w
      show WOk _ _ _ s.w
      unfold WOk at hwo ⊢
      split at hwo
      · trivial
      · exact hwo
      · obtain ⟨a, b, c⟩ := hwo
        exact ⟨a, by show _ ≤ _ + s.ring.size.toNat; omega, c⟩
      · exact hwo

theorem Inv.steps {s t : Conf} (h : Inv s) (st : Steps s t) : Inv t := by
  induction st with
  | refl => exact h
  | step _ st ih => exact ih.step st

theorem Reach.inv {s : Conf} (h : Reach s) : Inv s := by
  obtain ⟨s0, h0, st⟩ := h
  exact (Inv.init h0).steps st

end Verif.RingBufSpsc
