import Verif.Spsc.Lemmas
/-!
# C07: `RingBuffer` with one writer and one reader thread

`bodyW`/`bodyR` are arbitrary: the threads may run any calls built from the ring operations.
-/
namespace Verif.Spsc
open RingBuffer (Ring takeMin availRead availWrite)
open Spec (sent consumed ReadsFrom received)
variable {CW RW CR RR : Type} {bodyW : CW → WProg RW} {bodyR : CR → RProg RR}

/-- **C07**: in every interleaving, every completed read, peek or discard obtained exactly the bytes of the stream sent
so far at the reader's position, and nothing was consumed that was not sent. -/
theorem reads_from_stream (hv : ∀ c, (bodyW c).Valid) {s : Conf CW RW CR RR} (h : Reach bodyW bodyR s) :
    ReadsFrom (sent s.wlog) 0 s.rlog ∧ consumed s.rlog ≤ (sent s.wlog).length ∧
    (sent s.wlog).length - consumed s.rlog ≤ s.ring.size.toNat :=
  have i := h.inv hv
  ⟨i.reads, i.le, by have := i.fit; omega⟩

theorem received_of_reads {S : List Byte} {p : Nat} {l : List RDone} (h : ReadsFrom S p l)
    (ht : ∀ d ∈ l, d.target = true) : received l = (S.drop p).take (consumed l) ∧ consumed l ≤ S.length - p := by
  induction l generalizing p with
  | nil => simp [received, consumed]
  | cons d ds ih =>
    obtain ⟨_, h2, h3, h4⟩ := h
    obtain ⟨i1, i2⟩ := ih h4 (fun d hd => ht d (by simp [hd]))
    rw [if_pos (ht d (by simp))] at h3
    unfold received at i1 ⊢
    cases hp : d.peek with
    | true =>
      simp only [hp, if_true] at i1 i2
      simp [hp, consumed, i1]; exact i2
    | false =>
      simp only [hp, Bool.false_eq_true, if_false] at i1 i2
      simp only [List.filter_cons, hp, Bool.not_false, if_true, List.flatMap_cons, consumed, i1, h3, Bool.false_eq_true,
        if_false]
      refine ⟨?_, by omega⟩
      rw [List.take_add, List.drop_drop]

/-- **C07**: if the reader only uses reads with a buffer (and peeks), the concatenation of what it received is a prefix
of the concatenation of what the writer's calls accepted. -/
theorem received_prefix (hv : ∀ c, (bodyW c).Valid) {s : Conf CW RW CR RR} (h : Reach bodyW bodyR s)
    (ht : ∀ d ∈ s.rlog, d.target = true) : received s.rlog <+: sent s.wlog := by
  rw [(received_of_reads (h.inv hv).reads ht).1]
  exact List.take_prefix _ _

/-- **C07**: neither thread ever touches memory outside the ring or its source object. -/
theorem no_ub (hv : ∀ c, (bodyW c).Valid) {s : Conf CW RW CR RR} (h : Reach bodyW bodyR s) : s.w ≠ .ub ∧ s.r ≠ .ub := by
  have i := h.inv hv
  refine ⟨fun e => ?_, fun e => ?_⟩
  · have := i.w; rw [e] at this; exact this
  · have := i.r; rw [e] at this; exact this

/-- **C07** (no data race on the ring's bytes): whenever both threads are inside their copy phase, no byte the writer
may store is a byte the reader may load. -/
theorem no_byte_race (hv : ∀ c, (bodyW c).Valid) {s : Conf CW RW CR RR} (h : Reach bodyW bodyR s)
    {c src len k n done c' t pk len' k' n' done' tgt} (hw : s.w = .copy c src len k n done)
    (hr : s.r = .copy c' t pk len' k' n' done' tgt) (i j : Nat) (hi : i < n.toNat) (hj : j < n'.toNat) :
    byteAddr s.ring.size s.ring.inp n i ≠ byteAddr s.ring.size s.ring.out n' j := by
  have iv := h.inv hv
  have hwo := iv.w; rw [hw] at hwo
  have hro := iv.r; rw [hr] at hro
  obtain ⟨_, _, _, v3, _⟩ := hwo
  obtain ⟨_, u1, _⟩ := hro
  have hle := iv.le; have hfit := iv.fit
  rw [byteAddr_eq iv.ringInv _ n _ i iv.inp hi (by omega), byteAddr_eq iv.ringInv _ n' _ j iv.out hj (by omega)]
  exact (mod_ne (by omega) (by omega)).symm

/-- **C07** (the writer never overwrites an unread byte): the bytes of the stream not yet consumed are in the ring,
unmodified, in every reachable state, also in the middle of a write. -/
theorem unread_intact (hv : ∀ c, (bodyW c).Valid) {s : Conf CW RW CR RR} (h : Reach bodyW bodyR s) :
    RingBuffer.abs s.ring = (sent s.wlog).drop (consumed s.rlog) := by
  have i := h.inv hv
  have ha := i.availRead
  have hle := i.le
  unfold RingBuffer.abs
  rw [ha]
  apply List.ext_getElem?
  intro q
  by_cases hq : q < (sent s.wlog).length - consumed s.rlog
  · have hw := i.win (consumed s.rlog + q) (by omega) (by omega)
    have hm : (s.ring.out.toNat + q) % s.ring.size.toNat = (consumed s.rlog + q) % s.ring.size.toNat := by
      rw [← Nat.mod_add_mod, i.out, Nat.mod_mod_of_dvd _ i.ringInv.dvd, Nat.mod_add_mod]
    rw [Mem.cyc_getElem? _ _ _ _ _ hq, hm, List.getElem?_drop, ← hw]
    have h2 := i.ringInv.pos
    have hlt : (consumed s.rlog + q) % s.ring.size.toNat < s.ring.buf.length :=
      Nat.lt_of_lt_of_le (Nat.mod_lt _ (by omega)) i.hlen
    rw [List.getElem?_eq_getElem hlt, List.getD_eq_getElem?_getD, List.getElem?_eq_getElem hlt]
    rfl
  · rw [List.getElem?_eq_none (by simp; omega), List.getElem?_eq_none (by simp; omega)]

/-! ## Instance: plain `RingBuffer_write` / `RingBuffer_read` callers -/

/-- the writer calls `RingBuffer_write(src, |src|)`, result = return value -/
def plainW (src : List Byte) : WProg (BitVec 32) :=
  .write src (BitVec.ofNat 32 (src.length % 2 ^ 32)) .ret
/-- the reader calls `RingBuffer_read(buf, len)` -/
def plainR (len : BitVec 32) : RProg (BitVec 32 × List Byte) := .read true false len fun n d => .ret (n, d)

theorem plainW_valid (src : List Byte) : (plainW src).Valid :=
  .write (by simp; exact Nat.mod_le _ _) (fun _ => .ret _)

/-- A reachable state in which a message has gone through: the hypotheses of the theorems above are met. -/
example : ∃ s : Conf (List Byte) (BitVec 32) (BitVec 32) (BitVec 32 × List Byte),
    Reach plainW plainR s ∧ received s.rlog = [7, 8] ∧ sent s.wlog = [7, 8] := by
  let r0 : Ring := ⟨0#32, 0#32, 4#32, [0, 0, 0, 0]⟩
  have i0 : Reach plainW plainR ⟨r0, .idle, .idle, [], [], [], []⟩ :=
    .init ⟨rfl, rfl, ⟨2, by decide, by decide, rfl⟩, by decide, rfl, rfl, rfl, rfl, rfl, rfl⟩
  have i1 := i0.step (.wcall [7, 8] rfl)
  have i2 := i1.step (.rcall 5#32 rfl)
  have i3 := i2.step (.wbegin rfl (by decide))
  have i4 := i3.step (.wcopy 1 8 [0, 8, 0, 0] rfl (by decide) rfl (by decide))
  have i5 := i4.step (.wcopy 0 7 [7, 8, 0, 0] rfl (by decide) rfl (by decide))
  have i6 := i5.step (.wpub rfl (by decide))
  have i7 := i6.step (.rbegin rfl (by decide))
  have i8 := i7.step (.wret rfl)
  have i9 := i8.step (.rcopy 0 7 rfl (by decide) (by decide))
  have i10 := i9.step (.rcopy 1 8 rfl (by decide) (by decide))
  have i11 := i10.step (.rpub rfl (by decide))
  exact ⟨_, i11, by decide, by decide⟩

end Verif.Spsc
