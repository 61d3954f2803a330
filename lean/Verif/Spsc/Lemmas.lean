import Verif.Spsc.Spec
import Verif.RingBuffer.Props
/-! Inductive invariant of the two-thread system. -/
namespace Verif.Spsc
open RingBuffer (Ring takeMin availRead availWrite)
open Spec (sent consumed ReadsFrom received)

theorem sent_append (a b : List WDone) : sent (a ++ b) = sent a ++ sent b := by simp [sent]
theorem sent_single (d : WDone) : sent [d] = d.src.take d.n := by simp [sent]

theorem consumed_append (a b : List RDone) : consumed (a ++ b) = consumed a + consumed b := by
  induction a with
  | nil => simp [consumed]
  | cons d ds ih => simp [consumed, ih]; omega

theorem ReadsFrom_append (S : List Byte) (p : Nat) (a b : List RDone) :
    ReadsFrom S p (a ++ b) ↔ ReadsFrom S p a ∧ ReadsFrom S (p + consumed a) b := by
  induction a generalizing p with
  | nil => simp [ReadsFrom, consumed]
  | cons d ds ih =>
    simp only [List.cons_append, ReadsFrom, consumed, ih]
    have : (if d.peek = true then p else p + d.n) + consumed ds = p + ((if d.peek = true then 0 else d.n) + consumed ds) := by
      split <;> omega
    rw [this]
    constructor
    · rintro ⟨a, b, c, d, e⟩; exact ⟨⟨a, b, c, d⟩, e⟩
    · rintro ⟨⟨a, b, c, d⟩, e⟩; exact ⟨a, b, c, d, e⟩

theorem ReadsFrom_mono (S T : List Byte) (p : Nat) (a : List RDone) (h : ReadsFrom S p a) : ReadsFrom (S ++ T) p a := by
  induction a generalizing p with
  | nil => trivial
  | cons d ds ih =>
    obtain ⟨h1, h2, h3, h4⟩ := h
    refine ⟨h1, by simp; omega, ?_, ih _ h4⟩
    rw [h3]
    split
    · rw [List.drop_append_of_le_length (by omega), List.take_append_of_le_length (by simp; omega)]
    · rfl

variable {CW RW CR RR : Type}

/-- what the invariant says about the writer -/
def WOk (ring : Ring) (S : List Byte) (P : Nat) : WLoc CW RW → Prop
  | .idle => True
  | .run _ p => p.Valid
  | .copy _ src len k n done => (∀ x, (k x).Valid) ∧ len.toNat ≤ src.length ∧ n.toNat ≤ len.toNat ∧
      S.length + n.toNat ≤ P + ring.size.toNat ∧
      ∀ i ∈ done, i < n.toNat ∧ ring.buf[(S.length + i) % ring.size.toNat]? = src[i]?
  | .ub => False
  | .aborted => True

/-- what the invariant says about the reader -/
def ROk (S : List Byte) (P : Nat) : RLoc CR RR → Prop
  | .copy _ _ _ len _ n done tgt => n.toNat ≤ len.toNat ∧ P + n.toNat ≤ S.length ∧
      ∀ i ∈ done, i < n.toNat ∧ S[P + i]? = some (tgt i)
  | .ub => False
  | _ => True

structure Inv (s : Conf CW RW CR RR) : Prop where
  pow : ∃ k, 1 ≤ k ∧ k ≤ 31 ∧ s.ring.size.toNat = 2 ^ k
  hlen : s.ring.size.toNat ≤ s.ring.buf.length
  inp : s.ring.inp.toNat = (sent s.wlog).length % 2 ^ 32
  out : s.ring.out.toNat = consumed s.rlog % 2 ^ 32
  le : consumed s.rlog ≤ (sent s.wlog).length
  fit : (sent s.wlog).length ≤ consumed s.rlog + s.ring.size.toNat
  win : ∀ k, consumed s.rlog ≤ k → k < (sent s.wlog).length → s.ring.buf[k % s.ring.size.toNat]? = (sent s.wlog)[k]?
  reads : ReadsFrom (sent s.wlog) 0 s.rlog
  w : WOk s.ring (sent s.wlog) (consumed s.rlog) s.w
  r : ROk (sent s.wlog) (consumed s.rlog) s.r

theorem Inv.availRead {s : Conf CW RW CR RR} (h : Inv s) :
    (availRead s.ring).toNat = (sent s.wlog).length - consumed s.rlog := by
  have h1 := h.inp; have h2 := h.out; have h3 := h.le; have h4 := h.fit
  obtain ⟨k, k1, k2, e⟩ := h.pow
  have : s.ring.size.toNat < 2 ^ 32 := s.ring.size.isLt
  have : s.ring.size.toNat ≤ 2 ^ 31 := by rw [e]; exact Nat.pow_le_pow_right (by omega) k2
  unfold RingBuffer.availRead
  rw [BitVec.toNat_sub]
  omega

theorem Inv.ringInv {s : Conf CW RW CR RR} (h : Inv s) : RingBuffer.Inv s.ring :=
  ⟨h.pow, by have := h.availRead; have := h.fit; have := h.le; unfold RingBuffer.availRead at *; omega, h.hlen⟩

theorem Inv.availWrite {s : Conf CW RW CR RR} (h : Inv s) :
    (availWrite s.ring).toNat = s.ring.size.toNat - ((sent s.wlog).length - consumed s.rlog) := by
  rw [RingBuffer.availWrite_toNat h.ringInv, h.availRead]

theorem byteAddr_eq {r : Ring} (h : RingBuffer.Inv r) (pos n : BitVec 32) (S i : Nat) (hp : pos.toNat = S % 2 ^ 32)
    (hi : i < n.toNat) (hn : n.toNat ≤ r.size.toNat) :
    byteAddr r.size pos n i = (S + i) % r.size.toNat := by
  have hm := RingBuffer.mask_eq h pos
  have h2 := h.pos
  have hS : pos.toNat % r.size.toNat = S % r.size.toNat := by rw [hp, Nat.mod_mod_of_dvd _ h.dvd]
  rw [hS] at hm
  have hlt : S % r.size.toNat < r.size.toNat := Nat.mod_lt _ (by omega)
  unfold byteAddr
  simp only []
  have hf : (takeMin n (r.size - (pos &&& (r.size - 1#32)))).toNat = min n.toNat (r.size.toNat - S % r.size.toNat) := by
    rw [RingBuffer.takeMin_toNat, BitVec.toNat_sub, hm]; omega
  rw [hf, hm, ← Nat.mod_add_mod]
  clear hS hp hf hm
  generalize S % r.size.toNat = a at *
  split
  · rw [Nat.mod_eq_of_lt (by omega)]
  · rw [Nat.mod_eq_sub_mod (by omega), Nat.mod_eq_of_lt (by omega)]; omega

theorem mod_ne {a b m : Nat} (hab : a < b) (hb : b < a + m) : a % m ≠ b % m := by
  intro h
  have : (b - a) % m = 0 := Nat.sub_mod_eq_zero_of_mod_eq h.symm
  rw [Nat.mod_eq_of_lt (by omega)] at this
  omega

theorem store_single {m m' : Mem} {a : Nat} {b : Byte} (h : m.store a [b] = some m') :
    a < m.length ∧ m'.length = m.length ∧ ∀ j, m'[j]? = if j = a then some b else m[j]? := by
  unfold Mem.store at h
  split at h
  · next hlt =>
    simp at hlt
    simp only [Option.some.injEq] at h
    have e : m' = m.set a b := by
      rw [← h, List.set_eq_take_append_cons_drop, if_pos (by omega)]
      simp
    refine ⟨by omega, by rw [e]; simp, fun j => ?_⟩
    rw [e, List.getElem?_set]
    by_cases hj : a = j
    · rw [if_pos hj, if_pos hj.symm, if_pos (by omega)]
    · rw [if_neg hj, if_neg (fun x => hj x.symm)]
  · simp at h

theorem Inv.init {s : Conf CW RW CR RR} (h : Init s) : Inv s := by
  obtain ⟨h1, h2, h3, h4, h5, h6, h7, h8, _, _⟩ := h
  refine ⟨h3, h4, by rw [h1, h7]; rfl, by rw [h2, h8]; rfl, by rw [h8]; simp [consumed], by rw [h7]; simp [sent], ?_,
    by rw [h8]; trivial, by rw [h5]; trivial, by rw [h6]; trivial⟩
  intro k _ hk; rw [h7] at hk; simp [sent] at hk

theorem Inv.step {bodyW : CW → WProg RW} {bodyR : CR → RProg RR} (hv : ∀ c, (bodyW c).Valid)
    {s t : Conf CW RW CR RR} (h : Inv s) (st : Step bodyW bodyR s t) : Inv t := by
  have hri := h.ringInv
  have hsz := h.pow
  have h2 := hri.pos
  cases st with
  | wcall c hw => exact { h with w := hv c }
  | wret hw => exact { h with w := trivial }
  | wabort hw => exact { h with w := trivial }
  | wavail hw =>
    have := h.w; rw [hw] at this
    cases this with
    | avail hk => exact { h with w := hk _ }
  | wskip hw hc =>
    have := h.w; rw [hw] at this
    cases this with
    | write hl hk =>
      have e : ∀ src len, sent (s.wlog ++ [⟨src, len, 0⟩]) = sent s.wlog := by
        intro src len; rw [sent_append, sent_single]; simp
      exact { h with
        inp := by rw [e]; exact h.inp
        le := by rw [e]; exact h.le
        fit := by rw [e]; exact h.fit
        win := by rw [e]; exact h.win
        reads := by rw [e]; exact h.reads
        w := hk _
        r := by rw [e]; exact h.r }
  | wbegin hw hc =>
    have := h.w; rw [hw] at this
    cases this with
    | write hl hk =>
      refine { h with w := ⟨hk, hl, ?_, ?_, by simp⟩ }
      · rw [RingBuffer.takeMin_toNat]; omega
      · rw [RingBuffer.takeMin_toNat, h.availWrite]
        have := h.le; have := h.fit
        show (sent s.wlog).length + _ ≤ consumed s.rlog + s.ring.size.toNat
        omega
  | @wcopy c src len k n done i b m hw hi hb hm =>
    have hwo := h.w; rw [hw] at hwo
    obtain ⟨v, v1, v2, v3, v4⟩ := hwo
    have hle := h.le; have hfit := h.fit
    have haddr := byteAddr_eq hri s.ring.inp n _ i h.inp hi (by omega)
    rw [haddr] at hm
    obtain ⟨a1, a2, a3⟩ := store_single hm
    refine { h with hlen := by simp only [a2]; exact h.hlen, win := ?_, w := ⟨v, v1, v2, v3, ?_⟩ }
    · intro k hk1 hk2
      simp only at hk1 hk2
      simp only [a3]
      rw [if_neg]
      · exact h.win k hk1 hk2
      · exact mod_ne (by omega) (by omega)
    · intro j hj
      simp only [a3]
      by_cases hji : j = i
      · subst hji; rw [if_pos rfl, hb]; exact ⟨hi, rfl⟩
      · have hj' : j ∈ done := by simpa [hji] using hj
        obtain ⟨b1, b2⟩ := v4 j hj'
        refine ⟨b1, ?_⟩
        rw [if_neg, b2]
        rcases Nat.lt_or_gt_of_ne hji with hlt | hlt
        · exact mod_ne (by omega) (by omega)
        · exact (mod_ne (by omega) (by omega)).symm
  | @wub c src len k n done i hw hi hb =>
    have hwo := h.w; rw [hw] at hwo
    obtain ⟨v, v1, v2, v3, v4⟩ := hwo
    have hle := h.le
    exfalso
    rcases hb with hb | ⟨b, hb⟩
    · rw [List.getElem?_eq_none_iff] at hb; omega
    · rw [byteAddr_eq hri s.ring.inp n _ i h.inp hi (by omega)] at hb
      have hl := h.hlen
      have : ((sent s.wlog).length + i) % s.ring.size.toNat < s.ring.size.toNat := Nat.mod_lt _ (by omega)
      rw [Mem.store_eq_some (by simp; omega)] at hb
      simp at hb
  | @wpub c src len k n done hw hd =>
    have hwo := h.w; rw [hw] at hwo
    obtain ⟨v, v1, v2, v3, v4⟩ := hwo
    have hle := h.le; have hfit := h.fit
    have e : sent (s.wlog ++ [⟨src, len.toNat, n.toNat⟩]) = sent s.wlog ++ src.take n.toNat := by
      rw [sent_append, sent_single]
    have el : (sent s.wlog ++ src.take n.toNat).length = (sent s.wlog).length + n.toNat := by
      simp; omega
    refine { h with inp := ?_, le := ?_, fit := ?_, win := ?_, reads := ?_, w := v n, r := ?_ } <;> simp only
    · rw [e, el, BitVec.toNat_add, h.inp]; omega
    · rw [e, el]; omega
    · rw [e, el]; exact v3
    · rw [e, el]
      intro q hq1 hq2
      by_cases hq : q < (sent s.wlog).length
      · rw [List.getElem?_append_left hq]; exact h.win q hq1 hq
      · rw [List.getElem?_append_right (by omega), List.getElem?_take_of_lt (by omega)]
        obtain ⟨_, b2⟩ := v4 (q - (sent s.wlog).length) (hd _ (by omega))
        rw [← b2]
        congr 2; omega
    · rw [e]; exact ReadsFrom_mono _ _ _ _ h.reads
    · rw [e]
      have hr := h.r
      unfold ROk at hr ⊢
      split at hr
      · obtain ⟨r0, r1, r2⟩ := hr
        refine ⟨r0, by rw [el]; omega, fun i hi => ?_⟩
        obtain ⟨r3, r4⟩ := r2 i hi
        exact ⟨r3, by rw [List.getElem?_append_left (by omega)]; exact r4⟩
      · exact hr
      · trivial
  | rcall c hw => exact { h with r := trivial }
  | rret hw => exact { h with r := trivial }
  | rabort hw => exact { h with r := trivial }
  | ravail hw => exact { h with r := trivial }
  | @rskip c t pk len k hw hc =>
    have e : consumed (s.rlog ++ [⟨t, pk, len.toNat, 0, []⟩]) = consumed s.rlog := by
      rw [consumed_append]; simp [consumed]
    exact { h with
      out := by rw [e]; exact h.out
      le := by rw [e]; exact h.le
      fit := by rw [e]; exact h.fit
      win := by rw [e]; exact h.win
      reads := by
        rw [ReadsFrom_append]
        refine ⟨h.reads, ?_⟩
        have := h.le
        simp [ReadsFrom]; omega
      w := by rw [e]; exact h.w
      r := trivial }
  | @rbegin c t pk len k hw hc =>
    refine { h with r := ⟨?_, ?_, by simp⟩ }
    · rw [RingBuffer.takeMin_toNat]; omega
    · rw [RingBuffer.takeMin_toNat, h.availRead]; have := h.le
      show consumed s.rlog + _ ≤ (sent s.wlog).length
      omega
  | @rcopy c pk len k n done tgt i b hw hi hb =>
    have hro := h.r; rw [hw] at hro
    obtain ⟨v0, v1, v2⟩ := hro
    have hle := h.le; have hfit := h.fit
    refine { h with r := ⟨v0, v1, fun j hj => ?_⟩ }
    rw [byteAddr_eq hri s.ring.out n _ i h.out hi (by omega), h.win _ (by omega) (by omega)] at hb
    by_cases hji : j = i
    · subst hji; exact ⟨hi, by simpa using hb⟩
    · have hj' : j ∈ done := by simpa [hji] using hj
      simpa [hji] using v2 j hj'
  | @rub c pk len k n done tgt i hw hi hb =>
    have hro := h.r; rw [hw] at hro
    obtain ⟨v0, v1, v2⟩ := hro
    have hfit := h.fit
    exfalso
    rw [byteAddr_eq hri s.ring.out n _ i h.out hi (by omega), List.getElem?_eq_none_iff] at hb
    have hl := h.hlen
    have : (consumed s.rlog + i) % s.ring.size.toNat < s.ring.size.toNat := Nat.mod_lt _ (by omega)
    omega
  | @rpub c t pk len k n done tgt hw hd =>
    have hro := h.r; rw [hw] at hro
    obtain ⟨v0, v1, v2⟩ := hro
    have hle := h.le; have hfit := h.fit
    have hdata : (if t then (List.range n.toNat).map tgt else []) =
        (if t then ((sent s.wlog).drop (consumed s.rlog)).take n.toNat else []) := by
      cases t with
      | false => rfl
      | true =>
        simp only [if_true]
        apply List.ext_getElem?
        intro i
        by_cases hi : i < n.toNat
        · have := (v2 i (hd rfl i hi)).2
          rw [List.getElem?_take_of_lt hi, List.getElem?_drop, this]
          simp [hi]
        · rw [List.getElem?_eq_none (by simp; omega), List.getElem?_eq_none (by simp; omega)]
    generalize hdd : (if t then (List.range n.toNat).map tgt else []) = data at *
    have e : consumed (s.rlog ++ [⟨t, pk, len.toNat, n.toNat, data⟩]) = consumed s.rlog + (if pk then 0 else n.toNat) := by
      rw [consumed_append]; simp [consumed]
    refine { h with out := ?_, le := ?_, fit := ?_, win := ?_, reads := ?_, w := ?_, r := trivial } <;> simp only
    · rw [e]
      cases pk with
      | true => simpa using h.out
      | false => simp [BitVec.toNat_add, h.out]
    · rw [e]; split <;> omega
    · rw [e]
      show _ ≤ _ + s.ring.size.toNat
      omega
    · rw [e]
      intro q hq1 hq2
      exact h.win q (by omega) hq2
    · rw [ReadsFrom_append]
      refine ⟨h.reads, v0, by simpa using v1, ?_, trivial⟩
      simp only [hdata, Nat.zero_add]
    · rw [e]
      have hwo := h.w
      show WOk _ _ _ s.w
      unfold WOk at hwo ⊢
      split at hwo
      · trivial
      · exact hwo
      · obtain ⟨a, b, c, d, e⟩ := hwo
        exact ⟨a, b, c, by show _ ≤ _ + s.ring.size.toNat; omega, e⟩
      · exact hwo
      · trivial

theorem Reach.inv {bodyW : CW → WProg RW} {bodyR : CR → RProg RR} (hv : ∀ c, (bodyW c).Valid)
    {s : Conf CW RW CR RR} (h : Reach bodyW bodyR s) : Inv s := by
  induction h with
  | init h => exact Inv.init h
  | step _ st ih => exact ih.step hv st

end Verif.Spsc
