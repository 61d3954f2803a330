import Verif.FixedMsgQueue.Spec
import Verif.RingBuffer.Props
/-! Helper lemmas. -/
namespace Verif.FixedMsgQueue
open RingBuffer (Ring)

/-- number of messages that really fit -/
def capacity (q : Queue) : Nat := q.ring.size.toNat / q.one.toNat

structure Rep (q : Queue) (ms : List (List Byte)) : Prop where
  ring : RingBuffer.Inv q.ring
  one : 1 ≤ q.one.toNat
  abs : RingBuffer.abs q.ring = ms.flatten
  each : ∀ m ∈ ms, m.length = q.one.toNat

theorem flatten_length {one : Nat} {ms : List (List Byte)} (h : ∀ m ∈ ms, m.length = one) :
    ms.flatten.length = one * ms.length := by
  induction ms with
  | nil => simp
  | cons m ms ih =>
    rw [List.flatten_cons, List.length_append, ih (fun m hm => h m (by simp [hm])), h m (by simp),
      List.length_cons, Nat.mul_add, Nat.mul_one, Nat.add_comm]

theorem Rep.used {q : Queue} {ms} (h : Rep q ms) :
    (RingBuffer.availRead q.ring).toNat = q.one.toNat * ms.length := by
  rw [← RingBuffer.abs_length, h.abs, flatten_length h.each]

theorem Rep.le {q : Queue} {ms} (h : Rep q ms) : q.one.toNat * ms.length ≤ q.ring.size.toNat := by
  rw [← h.used]; exact h.ring.used

theorem Rep.popAmount {q : Queue} {ms} (h : Rep q ms) : (popAmount q).toNat = ms.length := by
  unfold FixedMsgQueue.popAmount
  rw [BitVec.toNat_udiv, h.used, Nat.mul_div_cancel_left _ h.one]

theorem Rep.pushAmount {q : Queue} {ms} (h : Rep q ms) :
    (pushAmount q).toNat = capacity q - ms.length := by
  unfold FixedMsgQueue.pushAmount capacity
  rw [BitVec.toNat_udiv, RingBuffer.availWrite_toNat h.ring, h.used, Nat.sub_mul_div]

theorem isFull_iff {q : Queue} {ms} (h : Rep q ms) : isFull q = true ↔ capacity q ≤ ms.length := by
  unfold isFull
  rw [beq_iff_eq, ← BitVec.toNat_inj, h.pushAmount]
  simp; omega

theorem isEmpty_iff {q : Queue} {ms} (h : Rep q ms) : isEmpty q = true ↔ ms = [] := by
  unfold isEmpty
  rw [beq_iff_eq, ← BitVec.toNat_inj, h.popAmount]
  simp [eq_comm]

theorem step_refines {q : Queue} {ms} (h : Rep q ms) (o : Op) (hv : Spec.Valid q.one.toNat o) :
    ∃ q', step q o = some (q', (Spec.step q.one.toNat (capacity q) ms o).2) ∧
      q'.one = q.one ∧ q'.ring.size = q.ring.size ∧
      Rep q' (Spec.step q.one.toNat (capacity q) ms o).1 := by
  have hU := h.used
  have hle := h.le
  cases o with
  | push msg =>
    cases msg with
    | none =>
      refine ⟨q, ?_, rfl, rfl, h⟩
      simp only [step, push, RingBuffer.write, Spec.step]
      have : (0#32 == q.one) = false := by
        rw [beq_eq_false_iff_ne]; intro hc; have := h.one; rw [← hc] at this; simp at this
      split
      · rfl
      · simp [this]
    | some m =>
      simp only [step, push, Spec.step]
      by_cases hf : isFull q = true
      · rw [if_pos hf, if_neg (by have := (isFull_iff h).1 hf; omega)]
        exact ⟨q, rfl, rfl, rfl, h⟩
      · have hlt : ms.length < capacity q := by
          have := (not_congr (isFull_iff h)).1 hf; omega
        rw [if_neg hf, if_pos hlt]
        obtain ⟨r', n, e, hn, i, es, _, _, _, ea⟩ := RingBuffer.write_spec h.ring m q.one hv
        have hroom : q.one.toNat ≤ q.ring.size.toNat - q.one.toNat * ms.length := by
          unfold capacity at hlt
          have h1 : (ms.length + 1) * q.one.toNat ≤ q.ring.size.toNat :=
            (Nat.le_div_iff_mul_le h.one).1 hlt
          rw [Nat.add_mul, Nat.one_mul, Nat.mul_comm] at h1
          omega
        have hn' : n.toNat = q.one.toNat := by
          rw [hn, RingBuffer.abs_length, hU]; omega
        have hnq : n = q.one := BitVec.eq_of_toNat_eq hn'
        rw [e]
        refine ⟨{ q with ring := r' }, by simp [hnq], rfl, es, i, h.one, ?_, ?_⟩
        · simp [ea, h.abs, hn']
        · intro x hx
          simp at hx
          rcases hx with hx | hx
          · exact h.each x hx
          · subst hx; rw [List.length_take]; exact Nat.min_eq_left hv
  | pop t =>
    cases t with
    | false => exact ⟨q, by simp [step, pop, Spec.step], rfl, rfl, h⟩
    | true =>
      simp only [step, pop, Spec.step]
      cases ms with
      | nil =>
        have : isEmpty q = true := (isEmpty_iff h).2 rfl
        exact ⟨q, by simp [this], rfl, rfl, h⟩
      | cons m ms =>
        have hne : isEmpty q = false := by
          have := (not_congr (isEmpty_iff h)).2 (by simp); simpa using this
        simp only [hne, Bool.not_true, Bool.or_self, Bool.false_eq_true, if_false]
        obtain ⟨n, hn, e⟩ := RingBuffer.readInternal_spec h.ring true q.one false
        have hm : m.length = q.one.toNat := h.each m (by simp)
        have hn' : n.toNat = q.one.toNat := by
          rw [hn, h.abs]; simp; omega
        have hnq : n = q.one := BitVec.eq_of_toNat_eq hn'
        obtain ⟨i, ea⟩ := RingBuffer.advance h.ring n (by rw [h.abs]; simp; omega)
        rw [RingBuffer.read, if_pos rfl, e]
        simp only [Bool.false_eq_true, if_false, if_true]
        refine ⟨{ q with ring := { q.ring with out := q.ring.out + n } }, ?_, rfl, rfl, i, h.one, ?_,
          fun x hx => h.each x (by simp [hx])⟩
        · have : (RingBuffer.abs q.ring).take n.toNat = m := by
            rw [h.abs, hn', ← hm]; simp
          rw [this]
          simp [hnq]
        · simp only []
          rw [ea, h.abs, hn', ← hm]; simp
  | clear =>
    obtain ⟨i, e⟩ := RingBuffer.clear_spec h.ring
    exact ⟨clear q, rfl, rfl, rfl, i, h.one, by simp [clear, Spec.step, e], by simp [Spec.step]⟩
  | popAmount => exact ⟨q, by simp [step, Spec.step, h.popAmount], rfl, rfl, h⟩
  | pushAmount => exact ⟨q, by simp [step, Spec.step, h.pushAmount], rfl, rfl, h⟩

theorem run_refines {q : Queue} {ms} (h : Rep q ms) (ops : List Op) (hv : ∀ o ∈ ops, Spec.Valid q.one.toNat o) :
    ∃ q', run q ops = some (q', (Spec.run q.one.toNat (capacity q) ms ops).2) ∧
      Rep q' (Spec.run q.one.toNat (capacity q) ms ops).1 := by
  induction ops generalizing q ms with
  | nil => exact ⟨q, rfl, h⟩
  | cons o os ih =>
    obtain ⟨q1, e1, s1, s2, a1⟩ := step_refines h o (hv o (by simp))
    obtain ⟨q2, e2, a2⟩ := ih a1 (fun o ho => by rw [s1]; exact hv o (by simp [ho]))
    have hc : capacity q1 = capacity q := by simp [capacity, s1, s2]
    rw [s1, hc] at e2 a2
    refine ⟨q2, ?_, a2⟩
    simp [run, e1, e2, Spec.run]

end Verif.FixedMsgQueue
