import Verif.RingBufSpsc.Lemmas
/-!
# C98: `ring_buf` with one writer and one reader thread

`Reach s`: `s` is reached from a ring fresh from `ring_buf_create_with_mem` by any interleaving of any writer calls
(`ring_buf_write`) with any reader calls (`ring_buf_read`, `ring_buf_peek`, `ring_buf_discard`).
-/
namespace Verif.RingBufSpsc
open RingBuf (Ring takeMin availRead availWrite)
open Spec (sent consumed ReadsFrom received inFlight)

/-- **C98**: in every interleaving, every completed read, peek or discard returned 0 or its full length and obtained
exactly the bytes of the stream sent so far at the reader's position; at most `size - 1` bytes are in flight. -/
theorem reads_from_stream {s : Conf} (h : Reach s) :
    ReadsFrom (sent s.wlog) 0 s.rlog ∧ consumed s.rlog ≤ (sent s.wlog).length ∧
    inFlight s ≤ s.ring.size.toNat - 1 :=
  have i := h.inv
  ⟨i.reads, i.le, by have := i.fit; unfold inFlight; omega⟩

theorem received_of_reads {S : List Byte} {p : Nat} {l : List RDone} (h : ReadsFrom S p l)
    (ht : ∀ d ∈ l, d.target = true) : received l = (S.drop p).take (consumed l) ∧ consumed l ≤ S.length - p := by
  induction l generalizing p with
  | nil => simp [received, consumed]
  | cons d ds ih =>
    obtain ⟨_, h2, h3, h4⟩ := h
    obtain ⟨i1, i2⟩ := ih h4 (fun d hd => ht d (by simp [hd]))
    rw [if_pos (ht d (by simp))] at h3
    unfold received at i1 ⊢
    cases hp : d.peek with
    | true =>
      simp only [hp, if_true] at i1 i2
      simp [hp, consumed, i1]; exact i2
    | false =>
      simp only [hp, Bool.false_eq_true, if_false] at i1 i2
      simp only [List.filter_cons, hp, Bool.not_false, if_true, List.flatMap_cons, consumed, i1, h3, Bool.false_eq_true,
        if_false]
      refine ⟨?_, by omega⟩
      rw [List.take_add, List.drop_drop]

/-- **C98**: if the reader always passes a buffer, the concatenation of what it received is a prefix of the
concatenation of what the writer's calls accepted. -/
theorem received_prefix {s : Conf} (h : Reach s) (ht : ∀ d ∈ s.rlog, d.target = true) :
    received s.rlog <+: sent s.wlog := by
  rw [(received_of_reads h.inv.reads ht).1]
  exact List.take_prefix _ _

/-- **C98**: neither thread ever touches memory outside the ring or its source object. -/
theorem no_ub {s : Conf} (h : Reach s) : s.w ≠ .ub ∧ s.r ≠ .ub := by
  have i := h.inv
  refine ⟨fun e => ?_, fun e => ?_⟩
  · have := i.w; rw [e] at this; exact this
  · have := i.r; rw [e] at this; exact this

/-- **C98** (no data race on the ring's bytes): whenever both threads are inside their copy phase, no byte the writer
may store is a byte the reader may load. -/
theorem no_byte_race {s : Conf} (h : Reach s) {src len done t pk len' done' tgt} (hw : s.w = .copy src len done)
    (hr : s.r = .copy t pk len' done' tgt) (i j : Nat) (hi : i < len.toNat) (hj : j < len'.toNat) :
    byteAddr s.ring.size s.ring.offWrite len i ≠ byteAddr s.ring.size s.ring.offRead len' j := by
  have iv := h.inv
  have hwo := iv.w; rw [hw] at hwo
  have hro := iv.r; rw [hr] at hro
  obtain ⟨_, v3, _⟩ := hwo
  obtain ⟨u1, _⟩ := hro
  have hle := iv.le; have hfit := iv.fit; have hp := iv.pos
  rw [byteAddr_eq (by omega) iv.offW hi (by omega), byteAddr_eq (by omega) iv.offR hj (by omega)]
  exact (Spsc.mod_ne (by omega) (by omega)).symm

/-- **C98** (the writer never overwrites an unread byte): byte `q` of the part of the stream not yet consumed is in the
ring, unmodified, at the reader's offset plus `q`, in every reachable state, also in the middle of a write. -/
theorem unread_intact {s : Conf} (h : Reach s) (q : Nat) (hq : q < inFlight s) :
    s.ring.pbuf[(s.ring.offRead.toNat + q) % s.ring.size.toNat]? = ((sent s.wlog).drop (consumed s.rlog))[q]? := by
  have i := h.inv
  have hle := i.le
  unfold inFlight at hq
  rw [i.offR, Nat.mod_add_mod, i.win _ (by omega) (by omega), List.getElem?_drop]

/-- **C98**: at any moment `ring_buf_available_read` yields the number of bytes sent and not consumed, and
`ring_buf_available_write` the rest of `size - 1`. -/
theorem available_exact {s : Conf} (h : Reach s) : (availRead s.ring).toNat = inFlight s ∧
    (availWrite s.ring).toNat + inFlight s = s.ring.size.toNat - 1 := by
  have i := h.inv
  have h1 := RingBuf.avail_sum i.ringInv
  have h2 := i.availRead
  unfold inFlight
  omega

/-- **C98**: every completed write stored all of its bytes or none. -/
theorem write_all_or_nothing {s : Conf} (h : Reach s) :
    ∀ d ∈ s.wlog, (d.ret = d.len ∧ 0 < d.len ∨ d.ret = 0) ∧ d.len ≤ d.src.length := by
  obtain ⟨s0, h0, st⟩ := h
  suffices H : (∀ d ∈ s.wlog, (d.ret = d.len ∧ 0 < d.len ∨ d.ret = 0) ∧ d.len ≤ d.src.length) ∧
      (∀ src len, s.w = .enter src len → len.toNat ≤ src.length) ∧
      (∀ src len done, s.w = .copy src len done → 0 < len.toNat ∧ len.toNat ≤ src.length) from H.1
  induction st with
  | refl =>
    obtain ⟨_, h5, _, h7, _⟩ := h0
    rw [h5, h7]; exact ⟨by simp, by simp, by simp⟩
  | step _ st ih =>
    obtain ⟨i1, i2, i3⟩ := ih
    cases st with
    | wcall src len hw hl =>
      refine ⟨i1, ?_, by simp⟩
      rintro _ _ ⟨⟩; exact hl
    | wrefuse hw hc =>
      refine ⟨?_, by simp, by simp⟩
      intro d hd
      simp only [List.mem_append, List.mem_singleton] at hd
      rcases hd with hd | rfl
      · exact i1 d hd
      · exact ⟨.inr rfl, i2 _ _ hw⟩
    | @wbegin src len hw hc =>
      refine ⟨i1, by simp, ?_⟩
      rintro _ _ _ ⟨⟩
      refine ⟨?_, i2 _ _ hw⟩
      rcases Nat.eq_zero_or_pos len.toNat with e | e
      · exact absurd (.inl (BitVec.eq_of_toNat_eq (by rw [e]; rfl))) hc
      · exact e
    | wcopy i b m hw hi hb hm =>
      refine ⟨i1, by simp, ?_⟩
      rintro _ _ _ ⟨⟩; exact i3 _ _ _ hw
    | wub i hw hi hb => exact ⟨i1, by simp, by simp⟩
    | wpub hw hd =>
      refine ⟨?_, by simp, by simp⟩
      intro d hd
      simp only [List.mem_append, List.mem_singleton] at hd
      rcases hd with hd | rfl
      · exact i1 d hd
      · exact ⟨.inl ⟨rfl, (i3 _ _ _ hw).1⟩, (i3 _ _ _ hw).2⟩
    | rcall t pk len hr => exact ⟨i1, i2, i3⟩
    | rrefuse hr hc => exact ⟨i1, i2, i3⟩
    | rbegin hr hc => exact ⟨i1, i2, i3⟩
    | rcopy i b hr hi hb => exact ⟨i1, i2, i3⟩
    | rub i hr hi hb => exact ⟨i1, i2, i3⟩
    | rpub hr hd => exact ⟨i1, i2, i3⟩

theorem writer_cases {s t : Conf} {src len} (hw : s.w = .enter src len) (st : Step s t) : t.w = .enter src len ∨
    (0#64 = len ∨ availWrite s.ring < len) ∧ t.w = .idle ∨
    ¬(0#64 = len ∨ availWrite s.ring < len) ∧ t.w = .copy src len [] := by
  cases st with
  | wcall _ _ h _ => rw [hw] at h; cases h
  | wrefuse h hc => rw [hw] at h; cases h; exact .inr (.inl ⟨hc, rfl⟩)
  | wbegin h hc => rw [hw] at h; cases h; exact .inr (.inr ⟨hc, rfl⟩)
  | wcopy _ _ _ h _ _ _ => rw [hw] at h; cases h
  | wub _ h _ _ => rw [hw] at h; cases h
  | wpub h _ => rw [hw] at h; cases h
  | rcall _ _ _ _ => exact .inl hw
  | rrefuse _ _ => exact .inl hw
  | rbegin _ _ => exact .inl hw
  | rcopy _ _ _ _ _ => exact .inl hw
  | rub _ _ _ _ => exact .inl hw
  | rpub _ _ => exact .inl hw

theorem reader_cases {s u : Conf} {t pk len} (hr : s.r = .enter t pk len) (st : Step s u) : u.r = .enter t pk len ∨
    (len = 0#64 ∨ availRead s.ring < len) ∧ u.r = .idle ∨
    ¬(len = 0#64 ∨ availRead s.ring < len) ∧ u.r = .copy t pk len [] (fun _ => 0) := by
  cases st with
  | rcall _ _ _ h => rw [hr] at h; cases h
  | rrefuse h hc => rw [hr] at h; cases h; exact .inr (.inl ⟨hc, rfl⟩)
  | rbegin h hc => rw [hr] at h; cases h; exact .inr (.inr ⟨hc, rfl⟩)
  | rcopy _ _ h _ _ => rw [hr] at h; cases h
  | rub _ h _ _ => rw [hr] at h; cases h
  | rpub h _ => rw [hr] at h; cases h
  | wcall _ _ _ _ => exact .inl hr
  | wrefuse _ _ => exact .inl hr
  | wbegin _ _ => exact .inl hr
  | wcopy _ _ _ _ _ _ _ => exact .inl hr
  | wub _ _ _ _ => exact .inl hr
  | wpub _ _ => exact .inl hr

/-- **C98** (a write is refused only for lack of space): a writer that has entered `ring_buf_write(src, len)` always can
take its next step, and that step returns 0 exactly when `len` is 0 or does not fit beside the bytes in flight. -/
theorem write_refused_iff {s : Conf} (h : Reach s) {src len} (hw : s.w = .enter src len) :
    (len.toNat = 0 ∨ s.ring.size.toNat - 1 < inFlight s + len.toNat) ∧
      Step s { s with w := .idle, wlog := s.wlog ++ [⟨src, len.toNat, 0⟩] } ∧
      (∀ t, Step s t → t.w = .enter src len ∨ t.w = .idle) ∨
    ¬(len.toNat = 0 ∨ s.ring.size.toNat - 1 < inFlight s + len.toNat) ∧
      Step s { s with w := .copy src len [] } ∧
      (∀ t, Step s t → t.w = .enter src len ∨ t.w = .copy src len []) := by
  have ⟨_, ha⟩ := available_exact h
  have hiff : (0#64 = len ∨ availWrite s.ring < len) ↔
      (len.toNat = 0 ∨ s.ring.size.toNat - 1 < inFlight s + len.toNat) := by
    rw [BitVec.lt_def, ← BitVec.toNat_inj]
    have : (0#64).toNat = 0 := rfl
    omega
  by_cases hc : 0#64 = len ∨ availWrite s.ring < len
  · refine .inl ⟨hiff.1 hc, .wrefuse hw hc, fun t st => ?_⟩
    rcases writer_cases hw st with h1 | ⟨_, h1⟩ | ⟨h1, _⟩
    · exact .inl h1
    · exact .inr h1
    · exact absurd hc h1
  · refine .inr ⟨fun x => hc (hiff.2 x), .wbegin hw hc, fun t st => ?_⟩
    rcases writer_cases hw st with h1 | ⟨h1, _⟩ | ⟨_, h1⟩
    · exact .inl h1
    · exact absurd h1 hc
    · exact .inr h1

/-- **C98** (a read is refused only for lack of data): likewise for the reader. -/
theorem read_refused_iff {s : Conf} (h : Reach s) {t pk len} (hr : s.r = .enter t pk len) :
    (len.toNat = 0 ∨ inFlight s < len.toNat) ∧
      Step s { s with r := .idle, rlog := s.rlog ++ [⟨t, pk, len.toNat, 0, []⟩] } ∧
      (∀ u, Step s u → u.r = .enter t pk len ∨ u.r = .idle) ∨
    ¬(len.toNat = 0 ∨ inFlight s < len.toNat) ∧
      Step s { s with r := .copy t pk len [] (fun _ => 0) } ∧
      (∀ u, Step s u → u.r = .enter t pk len ∨ u.r = .copy t pk len [] (fun _ => 0)) := by
  have ⟨ha, _⟩ := available_exact h
  have hiff : (len = 0#64 ∨ availRead s.ring < len) ↔ (len.toNat = 0 ∨ inFlight s < len.toNat) := by
    rw [BitVec.lt_def, ← BitVec.toNat_inj, ha]
    have : (0#64).toNat = 0 := rfl
    omega
  by_cases hc : len = 0#64 ∨ availRead s.ring < len
  · refine .inl ⟨hiff.1 hc, .rrefuse hr hc, fun t st => ?_⟩
    rcases reader_cases hr st with h1 | ⟨_, h1⟩ | ⟨h1, _⟩
    · exact .inl h1
    · exact .inr h1
    · exact absurd hc h1
  · refine .inr ⟨fun x => hc (hiff.2 x), .rbegin hr hc, fun t st => ?_⟩
    rcases reader_cases hr st with h1 | ⟨h1, _⟩ | ⟨_, h1⟩
    · exact .inl h1
    · exact absurd h1 hc
    · exact .inr h1

theorem step_size {s t : Conf} (st : Step s t) : t.ring.size = s.ring.size := by cases st <;> rfl

theorem step_wlog {s t : Conf} (st : Step s t) : s.wlog.length ≤ t.wlog.length ∧ s.rlog.length ≤ t.rlog.length ∧
    (t.wlog.length = s.wlog.length → t.wlog = s.wlog) ∧ (t.rlog.length = s.rlog.length → t.rlog = s.rlog) ∧
    (sent s.wlog).length ≤ (sent t.wlog).length ∧ consumed s.rlog ≤ consumed t.rlog := by
  cases st <;> simp [sent_append, consumed_append]

theorem steps_mono {s t : Conf} (st : Steps s t) : t.ring.size = s.ring.size ∧
    s.wlog.length ≤ t.wlog.length ∧ s.rlog.length ≤ t.rlog.length ∧
    (t.wlog.length = s.wlog.length → t.wlog = s.wlog) ∧ (t.rlog.length = s.rlog.length → t.rlog = s.rlog) ∧
    (sent s.wlog).length ≤ (sent t.wlog).length ∧ consumed s.rlog ≤ consumed t.rlog := by
  induction st with
  | refl => simp
  | @step t u _ st ih =>
    obtain ⟨a, b, c, d, e, f, g⟩ := ih
    obtain ⟨b', c', d', e', f', g'⟩ := step_wlog st
    refine ⟨(step_size st).trans a, by omega, by omega, fun hh => ?_, fun hh => ?_, by omega, by omega⟩
    · rw [d' (by omega), d (by omega)]
    · rw [e' (by omega), e (by omega)]

theorem Reach.steps {s t : Conf} (h : Reach s) (st : Steps s t) : Reach t := by
  obtain ⟨s0, h0, st0⟩ := h
  refine ⟨s0, h0, ?_⟩
  induction st with
  | refl => exact st0
  | step _ st ih => exact ih.step st

/-- **C98** (the space seen by the writer does not shrink behind its back): until the writer completes another call,
`ring_buf_available_write` can only grow, whatever the reader does. -/
theorem room_only_grows {s t : Conf} (h : Reach s) (st : Steps s t) (hl : t.wlog.length = s.wlog.length) :
    (availWrite s.ring).toNat ≤ (availWrite t.ring).toNat := by
  obtain ⟨a, _, _, d, _, _, g⟩ := steps_mono st
  have e1 := (available_exact h).2
  have e2 := (available_exact (h.steps st)).2
  have l1 := h.inv.le; have l2 := (h.steps st).inv.le
  rw [a] at e2
  unfold inFlight at e1 e2
  rw [d hl] at e2
  omega

/-- **C98** (the data seen by the reader does not vanish): until the reader completes another call,
`ring_buf_available_read` can only grow, whatever the writer does. -/
theorem data_only_grows {s t : Conf} (h : Reach s) (st : Steps s t) (hl : t.rlog.length = s.rlog.length) :
    (availRead s.ring).toNat ≤ (availRead t.ring).toNat := by
  obtain ⟨_, _, _, _, e, f, _⟩ := steps_mono st
  have e1 := (available_exact h).1
  have e2 := (available_exact (h.steps st)).1
  unfold inFlight at e1 e2
  rw [e hl] at e2
  omega

/-- **C98** (check then write): if `ring_buf_available_write` was at least `len` when the writer looked, and the writer
has completed no call since, its `ring_buf_write(src, len)` cannot be refused. -/
theorem checked_write_accepted {s t u : Conf} (h : Reach s) (st : Steps s t) (hl : t.wlog.length = s.wlog.length)
    {src len} (hw : t.w = .enter src len) (h0 : 0 < len.toNat) (hle : len.toNat ≤ (availWrite s.ring).toNat)
    (su : Step t u) : u.w = .enter src len ∨ u.w = .copy src len [] := by
  have hg := room_only_grows h st hl
  have e2 := (available_exact (h.steps st)).2
  rcases write_refused_iff (h.steps st) hw with ⟨hc, _⟩ | ⟨_, _, hx⟩
  · omega
  · exact hx u su

/-- **C98** (check then read): likewise for the reader. -/
theorem checked_read_accepted {s t u : Conf} (h : Reach s) (st : Steps s t) (hl : t.rlog.length = s.rlog.length)
    {tg pk len} (hr : t.r = .enter tg pk len) (h0 : 0 < len.toNat) (hle : len.toNat ≤ (availRead s.ring).toNat)
    (su : Step t u) : u.r = .enter tg pk len ∨ u.r = .copy tg pk len [] (fun _ => 0) := by
  have hg := data_only_grows h st hl
  have e2 := (available_exact (h.steps st)).1
  rcases read_refused_iff (h.steps st) hr with ⟨hc, _⟩ | ⟨_, _, hx⟩
  · omega
  · exact hx u su

/-- The offset stored by the small-step writer is the one `ring_buf_write` of the sequential model (C01) stores. -/
theorem write_offset_agrees {r r' : Ring} {src : List Byte} {len n : BitVec 64}
    (h : RingBuf.write r src len = some (r', n)) (hn : n ≠ 0#64) :
    r'.offWrite = newOffset r.size r.offWrite len ∧ n = len ∧ r'.offRead = r.offRead ∧ r'.size = r.size := by
  unfold RingBuf.write at h
  by_cases hc : 0#64 = len ∨ RingBuf.availWrite r < len
  · rw [if_pos hc] at h; simp at h; exact absurd h.2.symm hn
  · rw [if_neg hc] at h
    simp only [Option.bind_eq_bind, Option.bind_eq_some_iff] at h
    obtain ⟨m, _, h⟩ := h
    unfold newOffset
    by_cases h2 : 0#64 = len - takeMin len (r.size - r.offWrite)
    · rw [if_pos h2] at h
      simp only [Option.pure_def, Option.some.injEq, Prod.mk.injEq] at h
      obtain ⟨rfl, rfl⟩ := h
      simp [← h2]
    · rw [if_neg h2] at h
      simp only [Option.bind_eq_some_iff] at h
      obtain ⟨bs, _, m2, _, h⟩ := h
      simp only [Option.pure_def, Option.some.injEq, Prod.mk.injEq] at h
      obtain ⟨rfl, rfl⟩ := h
      simp only []
      rw [if_pos (fun e => h2 e.symm)]
      refine ⟨?_, ?_, ?_, ?_⟩ <;> first | rfl | trivial

/-- The offset stored by the small-step reader is the one the sequential model (C01) stores. -/
theorem read_offset_agrees {r r' : Ring} {pk t : Bool} {len n : BitVec 64} {data : List Byte}
    (h : RingBuf.readInternal r pk t len = some (r', n, data)) (hn : n ≠ 0#64) :
    r'.offRead = (if pk then r.offRead else newOffset r.size r.offRead len) ∧ n = len ∧ r'.offWrite = r.offWrite ∧
      r'.size = r.size ∧ r'.pbuf = r.pbuf := by
  unfold RingBuf.readInternal at h
  by_cases hc : len = 0#64 ∨ RingBuf.availRead r < len
  · rw [if_pos hc] at h; simp at h; exact absurd h.2.1.symm hn
  · rw [if_neg hc] at h
    simp only [Option.bind_eq_bind, Option.bind_eq_some_iff] at h
    obtain ⟨m, _, h⟩ := h
    unfold newOffset
    by_cases h2 : len - takeMin len (r.size - r.offRead) ≠ 0#64
    · rw [if_pos h2] at h
      simp only [Option.bind_eq_some_iff] at h
      obtain ⟨bs, _, h⟩ := h
      simp only [Option.pure_def, Option.some.injEq, Prod.mk.injEq] at h
      obtain ⟨rfl, rfl, _⟩ := h
      simp only [if_pos h2]
      cases pk <;> simp
    · rw [if_neg h2] at h
      simp only [Option.pure_def, Option.some.injEq, Prod.mk.injEq] at h
      obtain ⟨rfl, rfl, _⟩ := h
      simp only [if_neg h2]
      cases pk <;> simp

/-! ## Concrete executions -/

/-- an 8-byte ring in a 48-byte object -/
def ring0 : Ring := ⟨List.replicate 8 0, 8#64, 0#64, 0#64⟩
def conf0 : Conf := ⟨ring0, .idle, .idle, [], []⟩

theorem init0 : Init conf0 := ⟨⟨List.replicate 48 0, 48#64, rfl, by decide, by decide⟩, rfl, rfl, rfl, rfl⟩

theorem Steps.trans {s t u : Conf} (h : Steps s t) (h' : Steps t u) : Steps s u := by
  induction h' with
  | refl => exact h
  | step _ a ih => exact ih.step a

/-- state after writing `[1,2]` and reading it -/
def conf1 : Conf :=
  ⟨⟨[1, 2, 0, 0, 0, 0, 0, 0], 8#64, 2#64, 2#64⟩, .idle, .idle, [⟨[1, 2], 2, 2⟩], [⟨true, false, 2, 2, [1, 2]⟩]⟩

theorem steps01 : Steps conf0 conf1 := by
  have i0 : Steps conf0 conf0 := .refl _
  have i1 := i0.step (.wcall [1, 2] 2#64 rfl (by decide))
  have i2 := i1.step (.wbegin rfl (by decide))
  have i3 := i2.step (.wcopy 1 2 [0, 2, 0, 0, 0, 0, 0, 0] rfl (by decide) rfl (by decide))
  have i4 := i3.step (.rcall true false 2#64 rfl)
  have i5 := i4.step (.wcopy 0 1 [1, 2, 0, 0, 0, 0, 0, 0] rfl (by decide) rfl (by decide))
  have i6 := i5.step (.wpub rfl (by decide))
  have i7 := i6.step (.rbegin rfl (by decide))
  have i8 := i7.step (.rcopy 0 1 rfl (by decide) (by decide))
  have i9 := i8.step (.rcopy 1 2 rfl (by decide) (by decide))
  have i10 := i9.step (.rpub rfl (by decide))
  exact i10

/-- the theorems' hypotheses are met by a state in which a message has gone through -/
example : Reach conf1 ∧ received conf1.rlog = [1, 2] ∧ sent conf1.wlog = [1, 2] ∧ inFlight conf1 = 0 ∧
    (availWrite conf1.ring).toNat = 7 := ⟨⟨_, init0, steps01⟩, by decide, by decide, by decide, by decide⟩

/-- the writer at the end of the copy phase of `ring_buf_write([3,4])`, before it stores `offset_write` -/
def conf2 : Conf :=
  { conf1 with ring := ⟨[1, 2, 3, 4, 0, 0, 0, 0], 8#64, 2#64, 2#64⟩, w := .copy [3, 4] 2#64 [1, 0] }

theorem steps12 : Steps conf1 conf2 :=
  ((((Steps.refl conf1).step (.wcall [3, 4] 2#64 rfl (by decide))).step (.wbegin rfl (by decide))).step
    (.wcopy 0 3 [1, 2, 3, 0, 0, 0, 0, 0] rfl (by decide) rfl (by decide))).step
    (.wcopy 1 4 [1, 2, 3, 4, 0, 0, 0, 0] rfl (by decide) rfl (by decide))

/-- **C98** (negative): `ring_buf_clear` by the reader thread while a write is in progress breaks the stream: the
reader is handed bytes it had consumed before instead of those of the concurrent write. -/
theorem clear_during_write_breaks : ∃ s t u : Conf, Reach s ∧ ClearStep s t ∧ Steps t u ∧ sent u.wlog = [1, 2, 3, 4] ∧
    received u.rlog = [1, 2, 1, 2] ∧ ¬ received u.rlog <+: sent u.wlog := by
  have i0 : Steps { conf2 with ring := RingBuf.clear conf2.ring } { conf2 with ring := RingBuf.clear conf2.ring } :=
    .refl _
  have i1 := i0.step (.wpub rfl (by decide))
  have i2 := i1.step (.rcall true false 2#64 rfl)
  have i3 := i2.step (.rbegin rfl (by decide))
  have i4 := i3.step (.rcopy 0 1 rfl (by decide) (by decide))
  have i5 := i4.step (.rcopy 1 2 rfl (by decide) (by decide))
  have i6 := i5.step (.rpub rfl (by decide))
  exact ⟨conf2, _, _, ⟨_, init0, steps01.trans steps12⟩, .mk rfl, i6, by decide, by decide, by decide⟩

/-- `no_byte_race` is about states that exist: a writer and a reader both inside their copy phases. -/
example : ∃ s src len done t pk len' done' tgt, Reach s ∧ s.w = .copy src len done ∧ s.r = .copy t pk len' done' tgt ∧
    0 < len.toNat ∧ 0 < len'.toNat := by
  have i0 : Steps conf2 conf2 := .refl _
  have i1 := i0.step (.wpub rfl (by decide))
  have i2 := i1.step (.wcall [5, 6] 2#64 rfl (by decide))
  have i3 := i2.step (.wbegin rfl (by decide))
  have i4 := i3.step (.rcall true false 1#64 rfl)
  have i5 := i4.step (.rbegin rfl (by decide))
  exact ⟨_, _, _, _, _, _, _, _, _, ⟨_, init0, (steps01.trans steps12).trans i5⟩, rfl, rfl, by decide, by decide⟩

end Verif.RingBufSpsc
