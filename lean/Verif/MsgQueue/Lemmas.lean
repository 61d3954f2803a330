import Verif.MsgQueue.Spec
import Verif.RingBuffer.Props
/-! Helper lemmas. -/
namespace Verif.MsgQueue
open RingBuffer (Ring)

theorem dec_enc (n : BitVec 32) : decHdr (encHdr n) = some n := by
  simp only [encHdr, decHdr, UInt8.toNat_ofNat', Option.some.injEq]
  apply BitVec.eq_of_toNat_eq
  rw [BitVec.toNat_ofNat]
  have := n.isLt
  omega

@[simp] theorem encHdr_length (n : BitVec 32) : (encHdr n).length = 4 := rfl

/-- bytes of one stored message -/
def enc (m : List Byte) : List Byte := encHdr (BitVec.ofNat 32 m.length) ++ m

structure Rep (r : Ring) (ms : List (List Byte)) : Prop where
  ring : RingBuffer.Inv r
  abs : RingBuffer.abs r = (ms.map enc).flatten
  each : ∀ m ∈ ms, 1 ≤ m.length ∧ m.length < 2 ^ 32

theorem enc_flatten_length (ms : List (List Byte)) : (ms.map enc).flatten.length = Spec.used ms := by
  induction ms with
  | nil => rfl
  | cons m ms ih =>
    simp only [List.map_cons, List.flatten_cons, List.length_append, ih, Spec.used, List.sum_cons, enc,
      encHdr_length]

theorem Rep.used {r : Ring} {ms} (h : Rep r ms) : (RingBuffer.availRead r).toNat = Spec.used ms := by
  rw [← RingBuffer.abs_length, h.abs, enc_flatten_length]

theorem Rep.free {r : Ring} {ms} (h : Rep r ms) :
    (RingBuffer.availWrite r).toNat = r.size.toNat - Spec.used ms := by
  rw [RingBuffer.availWrite_toNat h.ring, h.used]

theorem push_spec {r : Ring} {ms} (h : Rep r ms) (m : List Byte) (size : BitVec 32) (hv : size.toNat ≤ m.length)
    (h0 : size.toNat ≠ 0) (hr : 4 + size.toNat ≤ r.size.toNat - Spec.used ms) :
    ∃ r', push r (some m) size = some (r', .success) ∧ r'.size = r.size ∧ Rep r' (ms ++ [m.take size.toNat]) := by
  have hF := h.free
  have hU := h.used
  unfold push
  simp only []
  rw [if_neg (by intro hc; rw [hc] at h0; simp at h0), if_neg (by omega)]
  obtain ⟨r1, n1, e1, hn1, i1, es1, _, _, _, ea1⟩ :=
    RingBuffer.write_spec h.ring (encHdr size) 4#32 (by simp)
  have hn1' : n1.toNat = 4 := by
    rw [hn1, RingBuffer.abs_length, hU]; simp; omega
  have hn1q : n1 = 4#32 := BitVec.eq_of_toNat_eq (by simpa using hn1')
  subst hn1q
  have hl1 : (RingBuffer.abs r1).length = Spec.used ms + 4 := by
    rw [ea1, List.length_append, RingBuffer.abs_length, hU]; simp
  obtain ⟨r2, n2, e2, hn2, i2, es2, _, _, _, ea2⟩ := RingBuffer.write_spec i1 m size hv
  have hn2' : n2.toNat = size.toNat := by
    rw [hn2, hl1, es1]; omega
  have hn2q : n2 = size := BitVec.eq_of_toNat_eq hn2'
  subst hn2q
  refine ⟨r2, by simp [e1, e2], by rw [es2, es1], i2, ?_, ?_⟩
  · rw [ea2, ea1, h.abs]
    have ht : (m.take n2.toNat).length = n2.toNat := by simp; omega
    have : (encHdr n2).take (4#32).toNat = encHdr n2 := rfl
    rw [this]
    simp only [List.map_append, List.flatten_append, List.map_cons, List.map_nil, List.flatten_cons,
      List.flatten_nil, List.append_nil, enc, ht, List.append_assoc]
    congr 2
    simp
  · intro x hx
    simp at hx
    rcases hx with hx | hx
    · exact h.each x hx
    · subst hx; simp; have := n2.isLt; omega

/-- the header seen by a peek when a message is stored -/
theorem peek_hdr {r : Ring} {m ms} (h : Rep r (m :: ms)) :
    RingBuffer.peek r true 4#32 = some (r, 4#32, encHdr (BitVec.ofNat 32 m.length)) := by
  obtain ⟨n, hn, e⟩ := RingBuffer.readInternal_spec h.ring true 4#32 true
  have hl : (RingBuffer.abs r).length = Spec.used (m :: ms) := by rw [RingBuffer.abs_length, h.used]
  have hn' : n.toNat = 4 := by
    rw [hn, hl]; simp [Spec.used]; omega
  have hnq : n = 4#32 := BitVec.eq_of_toNat_eq (by simpa using hn')
  subst hnq
  rw [RingBuffer.peek, e, h.abs]
  simp [enc]
  rfl

theorem used_cons (m : List Byte) (ms) : Spec.used (m :: ms) = 4 + m.length + Spec.used ms := by
  simp [Spec.used]

theorem pop_spec {r : Ring} {m ms} (h : Rep r (m :: ms)) (room : BitVec 32) :
    (room.toNat < m.length → pop r true (some room) =
      some (r, .bufNotEnough, [], some (BitVec.ofNat 32 m.length))) ∧
    (m.length ≤ room.toNat → ∃ r', pop r true (some room) = some (r', .success, m, some room) ∧
      r'.size = r.size ∧ Rep r' ms) := by
  have hU := h.used
  rw [used_cons] at hU
  have hm := h.each m (by simp)
  have hmn : (BitVec.ofNat 32 m.length).toNat = m.length := by
    rw [BitVec.toNat_ofNat, Nat.mod_eq_of_lt hm.2]
  have ha : ¬ (RingBuffer.availRead r).toNat < 4 + 1 := by omega
  have ha2 : ¬ (RingBuffer.availRead r).toNat < 4 + (BitVec.ofNat 32 m.length).toNat := by rw [hmn]; omega
  constructor
  · intro hlt
    have hb : room < BitVec.ofNat 32 m.length := by rw [BitVec.lt_def, hmn]; exact hlt
    unfold pop
    simp only [Bool.not_true, Bool.false_eq_true, if_false, if_neg ha]
    rw [peek_hdr h]
    simp only [Option.bind_eq_bind, Option.bind_some, ne_eq, not_true_eq_false, if_false, dec_enc, if_neg ha2,
      if_pos hb]
    rfl
  · intro hle
    have hb : ¬ room < BitVec.ofNat 32 m.length := by rw [BitVec.lt_def, hmn]; omega
    obtain ⟨n, hn, e⟩ := RingBuffer.readInternal_spec h.ring false 4#32 false
    have hl : (RingBuffer.abs r).length = 4 + m.length + Spec.used ms := by rw [RingBuffer.abs_length, hU]
    have hn' : n.toNat = 4 := by rw [hn, hl]; simp; omega
    have hnq : n = 4#32 := BitVec.eq_of_toNat_eq (by simpa using hn')
    subst hnq
    obtain ⟨i, ea⟩ := RingBuffer.advance h.ring 4#32 (by rw [hl]; simp; omega)
    have ea' : RingBuffer.abs { r with out := r.out + 4#32 } = m ++ (ms.map enc).flatten := by
      rw [ea, h.abs]
      have : (4#32).toNat = (encHdr (BitVec.ofNat 32 m.length)).length := by simp
      rw [this, List.map_cons, List.flatten_cons, enc, List.append_assoc, List.drop_left]
    obtain ⟨n2, hn2, e2⟩ := RingBuffer.readInternal_spec i true (BitVec.ofNat 32 m.length) false
    have hn2' : n2.toNat = (BitVec.ofNat 32 m.length).toNat := by
      rw [hn2, ea', hmn]; simp
    have hnq2 : n2 = BitVec.ofNat 32 m.length := BitVec.eq_of_toNat_eq hn2'
    subst hnq2
    obtain ⟨i2, ea2⟩ := RingBuffer.advance i (BitVec.ofNat 32 m.length) (by rw [ea', hmn]; simp)
    refine ⟨{ r with out := r.out + 4#32 + BitVec.ofNat 32 m.length }, ?_, rfl, i2, ?_, fun x hx => h.each x (by simp [hx])⟩
    · have ed : RingBuffer.discard r 4#32 = some ({ r with out := r.out + 4#32 }, 4#32, []) := by
        rw [RingBuffer.discard, e]; simp
      have er : RingBuffer.read { r with out := r.out + 4#32 } true (BitVec.ofNat 32 m.length) =
          some ({ r with out := r.out + 4#32 + BitVec.ofNat 32 m.length }, BitVec.ofNat 32 m.length, m) := by
        rw [RingBuffer.read, if_pos rfl, e2, ea', hmn]
        simp
      unfold pop
      simp only [Bool.not_true, Bool.false_eq_true, if_false, if_neg ha]
      rw [peek_hdr h]
      simp only [Option.bind_eq_bind, Option.bind_some, ne_eq, not_true_eq_false, if_false, dec_enc, if_neg ha2,
        if_neg hb, ed, er]
      rfl
    · rw [ea2, ea', hmn]; simp

theorem step_refines {r : Ring} {ms} (h : Rep r ms) (o : Op) (hv : Spec.Valid o) :
    ∃ r', step r o = some (r', (Spec.step r.size.toNat ms o).2) ∧ r'.size = r.size ∧
      Rep r' (Spec.step r.size.toNat ms o).1 := by
  have hU := h.used
  have hF := h.free
  cases o with
  | push msg size =>
    cases msg with
    | none => exact ⟨r, rfl, rfl, h⟩
    | some m =>
      simp only [step, Spec.step]
      by_cases h0 : size.toNat = 0
      · have : size = 0#32 := BitVec.eq_of_toNat_eq (by simpa using h0)
        exact ⟨r, by simp [push, this], rfl, by simp [this]; exact h⟩
      · have hne : size ≠ 0#32 := by intro hc; rw [hc] at h0; simp at h0
        rw [if_neg h0]
        by_cases hf : r.size.toNat - Spec.used ms < 4 + size.toNat
        · rw [if_pos hf]
          exact ⟨r, by simp [push, hne, hF, hf], rfl, h⟩
        · rw [if_neg hf]
          obtain ⟨r', e, es, hr⟩ := push_spec h m size hv h0 (by omega)
          exact ⟨r', by simp [e], es, hr⟩
  | pop t sizep =>
    cases sizep with
    | none => cases t <;> exact ⟨r, rfl, rfl, h⟩
    | some room =>
      cases t with
      | false => exact ⟨r, rfl, rfl, h⟩
      | true =>
        simp only [step, Spec.step]
        cases ms with
        | nil =>
          refine ⟨r, ?_, rfl, h⟩
          have : (RingBuffer.availRead r).toNat < 4 + 1 := by rw [hU]; simp [Spec.used]
          simp [pop, this]
        | cons m ms =>
          have hm := h.each m (by simp)
          obtain ⟨p1, p2⟩ := pop_spec h room
          by_cases hlt : room.toNat < m.length
          · simp only [if_pos hlt, p1 hlt]
            refine ⟨r, ?_, rfl, h⟩
            simp [Nat.mod_eq_of_lt hm.2]
          · simp only [if_neg hlt]
            obtain ⟨r', e, es, hr⟩ := p2 (by omega)
            exact ⟨r', by simp [e], es, hr⟩
  | nextSize =>
    simp only [step, Spec.step]
    cases ms with
    | nil =>
      refine ⟨r, ?_, rfl, h⟩
      have : (RingBuffer.availRead r).toNat < 4 + 1 := by rw [hU]; simp [Spec.used]
      simp [nextSize, this]
    | cons m ms =>
      have hm := h.each m (by simp)
      refine ⟨r, ?_, rfl, h⟩
      rw [used_cons] at hU
      have : ¬ (RingBuffer.availRead r).toNat < 4 + 1 := by omega
      simp [nextSize, if_neg this, peek_hdr h, dec_enc, Nat.mod_eq_of_lt hm.2]
  | clear =>
    obtain ⟨i, e⟩ := RingBuffer.clear_spec h.ring
    exact ⟨clear r, rfl, rfl, i, by simp [clear, Spec.step, e], by simp [Spec.step]⟩
  | popBytes => exact ⟨r, by simp [step, Spec.step, hU], rfl, h⟩
  | pushBytes => exact ⟨r, by simp [step, Spec.step, hF], rfl, h⟩

theorem run_refines {r : Ring} {ms} (h : Rep r ms) (ops : List Op) (hv : ∀ o ∈ ops, Spec.Valid o) :
    ∃ r', run r ops = some (r', (Spec.run r.size.toNat ms ops).2) ∧ r'.size = r.size ∧
      Rep r' (Spec.run r.size.toNat ms ops).1 := by
  induction ops generalizing r ms with
  | nil => exact ⟨r, rfl, rfl, h⟩
  | cons o os ih =>
    obtain ⟨r1, e1, s1, a1⟩ := step_refines h o (hv o (by simp))
    obtain ⟨r2, e2, s2, a2⟩ := ih a1 (fun o ho => hv o (by simp [ho]))
    rw [s1] at e2 a2
    refine ⟨r2, ?_, by rw [s2, s1], a2⟩
    simp [run, e1, e2, Spec.run]

end Verif.MsgQueue
