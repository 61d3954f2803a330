import Verif.RingBufTso.Lemmas
/-!
# C99: `ring_buf` between one writer and one reader thread, on a machine with store buffers

`Reach false` is total store order (x86), `Reach true` lets the writer's stores to different locations overtake each
other.
-/
namespace Verif.RingBufTso
open RingBuf (Ring availRead availWrite)
open RingBufSpsc (WLoc RLoc WDone RDone byteAddr newOffset byteAddr_eq)
open RingBufSpsc.Spec (sent consumed ReadsFrom received)

/-- **C99**: under total store order, whenever the stores of either thread reach memory, every completed read, peek or
discard returned 0 or its full length and obtained exactly the bytes of the stream at the reader's position; nothing was
consumed that was not sent, and no more than `size - 1` bytes are ever accepted ahead of the reader. -/
theorem tso_reads_from_stream {s : Conf} (h : Reach false s) :
    ReadsFrom (sent s.wlog) 0 s.rlog ∧ consumed s.rlog ≤ (sent s.wlog).length ∧
    (sent s.wlog).length - consumed s.rlog ≤ s.mem.size.toNat - 1 := by
  obtain ⟨PM, IM, i⟩ := h.inv
  have := i.le; have := i.inle; have := i.fit; have := i.rq.le
  exact ⟨i.reads, by omega, by omega⟩

/-- **C99**: if the reader always passes a buffer, the concatenation of what it received is a prefix of the
concatenation of what the writer's calls accepted. -/
theorem tso_received_prefix {s : Conf} (h : Reach false s) (ht : ∀ d ∈ s.rlog, d.target = true) :
    received s.rlog <+: sent s.wlog := by
  obtain ⟨PM, IM, i⟩ := h.inv
  rw [(RingBufSpsc.received_of_reads i.reads ht).1]
  exact List.take_prefix _ _

/-- **C99**: neither thread ever touches memory outside the ring or its source object. -/
theorem tso_no_ub {s : Conf} (h : Reach false s) : s.w ≠ .ub ∧ s.r ≠ .ub := by
  obtain ⟨PM, IM, i⟩ := h.inv
  refine ⟨fun e => ?_, fun e => ?_⟩
  · obtain ⟨m', _, hw⟩ := i.w; rw [e] at hw; exact hw
  · have := i.r; rw [e] at this; exact this

/-- **C99** (no race on the ring's bytes): while the reader copies, no byte it may load is the target of a store that is
still waiting in the writer's buffer. -/
theorem tso_no_pending_race {s : Conf} (h : Reach false s) {t pk len done tgt} (hr : s.r = .copy t pk len done tgt)
    (j : Nat) (hj : j < len.toNat) {a b} (hq : WStore.byte a b ∈ s.wq) :
    a ≠ byteAddr s.mem.size s.rview.offRead len j := by
  obtain ⟨PM, IM, i⟩ := h.inv
  have hro := i.r; rw [hr] at hro
  obtain ⟨u1, _⟩ := hro
  rw [i.vis] at u1
  obtain ⟨m', hw, _⟩ := i.w
  obtain ⟨q, q1, q2, q3⟩ := hw.pending hq
  have h0 := i.pos; have h1 := i.rq.le; have h2 := i.inle; have h3 := i.fit
  rw [byteAddr_eq (by omega) i.rviewOff hj (by omega), q3]
  exact (Spsc.mod_ne (by omega) (by omega)).symm

/-- **C99** (nor of a store the writer may still issue in the write it is in). -/
theorem tso_no_byte_race {s : Conf} (h : Reach false s) {src len done t pk len' done' tgt}
    (hw : s.w = .copy src len done) (hr : s.r = .copy t pk len' done' tgt) (i j : Nat) (hi : i < len.toNat)
    (hj : j < len'.toNat) :
    byteAddr s.mem.size s.wview.offWrite len i ≠ byteAddr s.mem.size s.rview.offRead len' j := by
  obtain ⟨PM, IM, iv⟩ := h.inv
  obtain ⟨m', hq, hwo⟩ := iv.w; rw [hw] at hwo
  have hro := iv.r; rw [hr] at hro
  obtain ⟨_, v3, _⟩ := hwo
  obtain ⟨u1, _⟩ := hro
  rw [iv.vis] at u1
  simp only at v3
  have h0 := iv.pos; have h1 := iv.rq.le; have h2 := iv.inle; have h3 := iv.fit
  rw [byteAddr_eq (by omega) iv.wviewOff hi (by omega), byteAddr_eq (by omega) iv.rviewOff hj (by omega)]
  exact (Spsc.mod_ne (by omega) (by omega)).symm

/-- **C99** (nothing lost): once both store buffers have drained, the ring in memory holds exactly the bytes sent and
not yet consumed, even in the middle of a call. -/
theorem tso_drained_holds_rest {s : Conf} (h : Reach false s) (hw : s.wq = []) (hr : s.rq = []) :
    (availRead s.mem).toNat = (sent s.wlog).length - consumed s.rlog ∧
    ∀ q, q < (sent s.wlog).length - consumed s.rlog →
      s.mem.pbuf[(s.mem.offRead.toNat + q) % s.mem.size.toNat]? = ((sent s.wlog).drop (consumed s.rlog))[q]? := by
  obtain ⟨PM, IM, i⟩ := h.inv
  have hrq := i.rq; rw [hr] at hrq
  obtain ⟨m', hwq, _⟩ := i.w; rw [hw] at hwq
  obtain ⟨rfl, eI⟩ := hwq
  have eP : PM = consumed s.rlog := hrq
  have ev : s.rview = s.mem := by unfold Conf.rview; rw [hr]; rfl
  have ha := i.availRead; rw [ev] at ha
  have hle := i.le
  refine ⟨by rw [ha, eI], fun q hq => ?_⟩
  rw [i.offR, Nat.mod_add_mod, eP, i.win _ (by omega) (by omega), List.getElem?_drop]

/-- **C99** (late, never wrong): what a thread sees of the other one may be old, but it errs on the safe side: the
writer sees at most the free space there is, the reader at most the bytes there are. -/
theorem tso_views_safe {s : Conf} (h : Reach false s) :
    (availWrite s.wview).toNat + ((sent s.wlog).length - consumed s.rlog) ≤ s.mem.size.toNat - 1 ∧
    (availRead s.rview).toNat ≤ (sent s.wlog).length - consumed s.rlog := by
  obtain ⟨PM, IM, i⟩ := h.inv
  have h0 := i.pos; have h1 := i.rq.le; have h2 := i.inle; have h3 := i.fit; have h4 := i.le
  have a := i.availWrite; have b := i.availRead
  omega

/-! ## The machine contains sequential consistency -/

/-- a state of the sequentially consistent system, nothing pending -/
def embed (s : RingBufSpsc.Conf) : Conf := ⟨s.ring, [], [], s.w, s.r, s.wlog, s.rlog⟩

/-- **C99** (more behaviour than `Verif.RingBufSpsc`, not less): every state the sequentially consistent system reaches
is reached here too, by draining every store at once. -/
theorem sc_is_tso {pso : Bool} {s : RingBufSpsc.Conf} (h : RingBufSpsc.Reach s) : Reach pso (embed s) := by
  obtain ⟨s0, ⟨h1, h2, h3, h4, h5⟩, st⟩ := h
  refine ⟨embed s0, ⟨h1, rfl, rfl, h2, h3, h4, h5⟩, ?_⟩
  induction st with
  | refl => exact .refl _
  | @step s t _ st ih =>
    cases st with
    | wcall src len hw hl => exact ih.step (.wcall src len hw hl)
    | wrefuse hw hc => exact ih.step (.wrefuse hw hc)
    | wbegin hw hc => exact ih.step (.wbegin hw hc)
    | @wcopy src len done i b m hw hi hb hm =>
      have e : m = s.ring.pbuf.set (byteAddr s.ring.size s.ring.offWrite len i) b := by
        obtain ⟨a1, a2, a3⟩ := Spsc.store_single hm
        apply List.ext_getElem?
        intro j
        rw [a3, List.getElem?_set]
        by_cases hj : j = byteAddr s.ring.size s.ring.offWrite len i
        · rw [if_pos hj, if_pos hj.symm, if_pos a1]
        · rw [if_neg hj, if_neg (fun x => hj x.symm)]
      have h1 := ih.step (.wcopy i b hw hi hb (Spsc.store_single hm).1)
      have h2 := h1.step (.wdrain [] _ [] rfl (.inl rfl))
      subst e
      exact h2
    | @wub src len done i hw hi hb =>
      refine ih.step (.wub i hw hi ?_)
      rcases hb with hb | ⟨b, hb⟩
      · exact .inl hb
      · refine .inr ?_
        apply Nat.le_of_not_lt
        intro hlt
        have hlt' : byteAddr s.ring.size s.ring.offWrite len i < s.ring.pbuf.length := hlt
        rw [Mem.store_eq_some (by simp; omega)] at hb
        simp at hb
    | wpub hw hd =>
      have h1 := ih.step (.wpub hw hd)
      have h2 := h1.step (.wdrain [] _ [] rfl (.inl rfl))
      exact h2
    | rcall t pk len hw => exact ih.step (.rcall t pk len hw)
    | rrefuse hw hc => exact ih.step (.rrefuse hw hc)
    | rbegin hw hc => exact ih.step (.rbegin hw hc)
    | rcopy i b hw hi hb => exact ih.step (.rcopy i b hw hi hb)
    | rub i hw hi hb => exact ih.step (.rub i hw hi hb)
    | @rpub t pk len done tgt hw hd =>
      have h1 := ih.step (.rpub hw hd)
      cases pk with
      | true => exact h1
      | false =>
        have h2 := h1.step (.rdrain (q := []) rfl)
        exact h2

/-! ## Concrete runs -/

/-- a fresh 3-byte ring holding old bytes -/
def ring3 : Conf := ⟨⟨[0xAA, 0xBB, 0xCC], 3#64, 0#64, 0#64⟩, [], [], .idle, .idle, [], []⟩

theorem init3 : Init ring3 :=
  ⟨⟨List.replicate 40 0 ++ [0xAA, 0xBB, 0xCC], 43#64, rfl, by decide, by decide⟩, rfl, rfl, rfl, rfl, rfl, rfl⟩

/-- The buffers matter: a run under total store order in which the writer has completed a write of one byte, and the
reader is told there is nothing to read because the writer's stores are still in its buffer. -/
example : ∃ s, Reach false s ∧ sent s.wlog = [7] ∧ s.rlog.map (·.ret) = [0] ∧ s.rlog.map (·.len) = [1] := by
  have i0 : Steps false ring3 ring3 := .refl _
  have i1 := i0.step (.wcall [7] 1#64 rfl (by decide))
  have i2 := i1.step (.wbegin rfl (by decide))
  have i3 := i2.step (.wcopy 0 7 rfl (by decide) rfl (by decide))
  have i4 := i3.step (.wpub rfl (by decide))
  have i5 := i4.step (.rcall true false 1#64 rfl)
  have i6 := i5.step (.rrefuse rfl (by decide))
  exact ⟨_, ⟨_, init3, i6⟩, by decide, by decide, by decide⟩

/-- **C99** (the guarantee needs store order): on a machine on which the store of `offset_write` may become visible
before the stores of the bytes, a reader receives a byte that was never sent.  The code has no barrier against it. -/
theorem pso_garbage : ∃ s, Reach true s ∧ sent s.wlog = [7] ∧ received s.rlog = [0xAA] ∧
    ¬ received s.rlog <+: sent s.wlog := by
  have i0 : Steps true ring3 ring3 := .refl _
  have i1 := i0.step (.wcall [7] 1#64 rfl (by decide))
  have i2 := i1.step (.wbegin rfl (by decide))
  have i3 := i2.step (.wcopy 0 7 rfl (by decide) rfl (by decide))
  have i4 := i3.step (.wpub rfl (by decide))
  have i5 := i4.step (.wdrain [.byte 0 7] (.off 1#64) [] rfl (.inr ⟨rfl, by decide⟩))
  have i6 := i5.step (.rcall true false 1#64 rfl)
  have i7 := i6.step (.rbegin rfl (by decide))
  have i8 := i7.step (.rcopy 0 0xAA rfl (by decide) (by decide))
  have i9 := i8.step (.rpub rfl (by decide))
  exact ⟨_, ⟨_, init3, i9⟩, by decide, by decide, by decide⟩

/-- the race theorems are about states that exist: the reader copies while a byte store of the writer is pending -/
example : ∃ s t pk len done tgt a b, Reach false s ∧ s.r = .copy t pk len done tgt ∧ 0 < len.toNat ∧
    WStore.byte a b ∈ s.wq := by
  have i0 : Steps false ring3 ring3 := .refl _
  have i1 := i0.step (.wcall [7] 1#64 rfl (by decide))
  have i2 := i1.step (.wbegin rfl (by decide))
  have i3 := i2.step (.wcopy 0 7 rfl (by decide) rfl (by decide))
  have i4 := i3.step (.wpub rfl (by decide))
  have i5 := i4.step (.wdrain [] _ _ rfl (.inl rfl))
  have i6 := i5.step (.wdrain [] _ _ rfl (.inl rfl))
  have i7 := i6.step (.wcall [8] 1#64 rfl (by decide))
  have i8 := i7.step (.wbegin rfl (by decide))
  have i9 := i8.step (.wcopy 0 8 rfl (by decide) rfl (by decide))
  have i10 := i9.step (.rcall true false 1#64 rfl)
  have i11 := i10.step (.rbegin rfl (by decide))
  exact ⟨_, _, _, _, _, _, _, _, ⟨_, init3, i11⟩, rfl, by decide, List.mem_cons_self⟩

end Verif.RingBufTso
