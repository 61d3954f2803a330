import Verif.RingBuf.Lemmas
/-!
# Properties of `ring_buf.c` (claims C03, C04)
-/
namespace Verif.RingBuf

/-- Contract of `malloc`: the object returned has exactly the requested size, and no object exceeds
`PTRDIFF_MAX`. -/
def MallocOk (malloc : BitVec 64 → Option Mem) : Prop :=
  ∀ n m, malloc n = some m → m.length = n.toNat ∧ n.toNat < 2 ^ 63

theorem run_refines {r : Ring} (h : Inv r) (ops : List Op) (hv : ∀ o ∈ ops, Spec.Valid o) :
    ∃ r', run r ops = some (r', (Spec.run (r.size.toNat - 1) (abs r) ops).2) ∧ Inv r' ∧ r'.size = r.size ∧
      abs r' = (Spec.run (r.size.toNat - 1) (abs r) ops).1 := by
  induction ops generalizing r with
  | nil => exact ⟨r, rfl, h, rfl, rfl⟩
  | cons o os ih =>
    obtain ⟨r1, e1, i1, s1, a1⟩ := step_refines h o (hv o (by simp))
    obtain ⟨r2, e2, i2, s2, a2⟩ := ih i1 (fun o ho => hv o (by simp [ho]))
    rw [s1, a1] at e2 a2
    refine ⟨r2, ?_, i2, by rw [s2, s1], ?_⟩
    · simp [run, e1, e2, Spec.run]
    · rw [a2]; rfl

/-- A successful `ring_buf_create` yields an empty ring of exactly the requested size, whose memory lies inside
the allocated object; a request whose total size overflows `size_t` is refused. -/
theorem create_spec {malloc : BitVec 64 → Option Mem} (hm : MallocOk malloc) {size : BitVec 64} {r : Ring}
    (h : create malloc size = some r) :
    Inv r ∧ r.size = size ∧ abs r = [] ∧ 3 ≤ size.toNat ∧ r.pbuf.length = size.toNat := by
  unfold create at h
  by_cases h3 : size < 3#64
  · simp [h3] at h
  · simp only [if_neg h3] at h
    rw [BitVec.lt_def] at h3
    cases hmm : malloc (size + structSize) with
    | none => simp [hmm] at h
    | some m =>
      obtain ⟨hl, hb⟩ := hm _ _ hmm
      simp only [hmm, createWithMem] at h
      by_cases h4 : size + structSize < structSize + 3#64
      · simp [h4] at h
      · simp only [if_neg h4, Option.some.injEq] at h
        have e40 : structSize.toNat = 40 := rfl
        have e43 : (structSize + 3#64).toNat = 43 := rfl
        rw [BitVec.lt_def, e43, BitVec.toNat_add, e40] at h4
        rw [BitVec.toNat_add, e40] at hl hb
        have h5 : size.toNat + 40 < 2 ^ 64 := by
          have := size.isLt; omega
        rw [Nat.mod_eq_of_lt h5] at hl hb h4
        have es : size + structSize - structSize = size := by
          apply BitVec.eq_of_toNat_eq
          rw [BitVec.toNat_sub, BitVec.toNat_add, e40]; omega
        subst h
        rw [es]
        have hlen : (m.drop structSize.toNat).length = size.toNat := by rw [List.length_drop, e40]; omega
        have e3 : (3#64).toNat = 3 := rfl
        rw [e3] at h3
        have hI : Inv { pbuf := m.drop structSize.toNat, size := size, offRead := 0#64, offWrite := 0#64 } :=
          ⟨by simp only []; omega, by simp only []; omega, by simp; omega, by simp; omega,
            by simp only [hlen]; omega⟩
        refine ⟨hI, rfl, ?_, by omega, hlen⟩
        have := availRead_toNat hI
        simp at this
        simp [abs, this, Mem.cyc]

/-- **C03/C04.** For every size, every malloc behaviour and every history of calls whose sources are readable:
no call is undefined behaviour (no byte access leaves the ring), and every return value and every byte
delivered is that of a mathematical FIFO of capacity `size - 1` with all-or-nothing transfers. -/
theorem refines_fifo {malloc : BitVec 64 → Option Mem} (hm : MallocOk malloc) {size : BitVec 64} {r : Ring}
    (hc : create malloc size = some r) (ops : List Op) (hv : ∀ o ∈ ops, Spec.Valid o) :
    ∃ r', run r ops = some (r', (Spec.run (size.toNat - 1) [] ops).2) := by
  obtain ⟨i, e, a, _⟩ := create_spec hm hc
  obtain ⟨r', h, _⟩ := run_refines i ops hv
  rw [e, a] at h
  exact ⟨r', h⟩

/-- **C06-like part for `ring_buf_create_with_mem`**: with a caller-provided object of the stated size the same holds. -/
theorem refines_fifo_with_mem {m : Mem} {bufSize : BitVec 64} {r : Ring} (hl : m.length = bufSize.toNat)
    (hb : bufSize.toNat < 2 ^ 63) (hc : createWithMem (some m) bufSize = some r)
    (ops : List Op) (hv : ∀ o ∈ ops, Spec.Valid o) :
    ∃ r', run r ops = some (r', (Spec.run (bufSize.toNat - 41) [] ops).2) := by
  unfold createWithMem at hc
  simp only [] at hc
  by_cases h4 : bufSize < structSize + 3#64
  · simp [h4] at hc
  · simp only [if_neg h4, Option.some.injEq] at hc
    have e40 : structSize.toNat = 40 := rfl
    have e43 : (structSize + 3#64).toNat = 43 := rfl
    rw [BitVec.lt_def, e43] at h4
    have es : (bufSize - structSize).toNat = bufSize.toNat - 40 := by
      rw [BitVec.toNat_sub, e40]; omega
    subst hc
    have hI : Inv { pbuf := m.drop structSize.toNat, size := bufSize - structSize, offRead := 0#64, offWrite := 0#64 } :=
      ⟨by simp only [es]; omega, by simp only [es]; omega, by simp [es]; omega, by simp [es]; omega,
        by simp only [es, List.length_drop, e40]; omega⟩
    obtain ⟨r', h, _⟩ := run_refines hI ops hv
    have ha : abs { pbuf := m.drop structSize.toNat, size := bufSize - structSize, offRead := 0#64, offWrite := 0#64 } = [] := by
      have := availRead_toNat hI
      simp at this
      simp [abs, this, Mem.cyc]
    rw [ha] at h
    simp only [es, show bufSize.toNat - 40 - 1 = bufSize.toNat - 41 by omega] at h
    exact ⟨r', h⟩

/-- **C04.** After any history, free + used = size - 1, as reported by the two query functions. -/
theorem space_accounting {malloc : BitVec 64 → Option Mem} (hm : MallocOk malloc) {size : BitVec 64} {r r' : Ring}
    (hc : create malloc size = some r) (ops : List Op) (hv : ∀ o ∈ ops, Spec.Valid o) {outs : List Out}
    (hr : run r ops = some (r', outs)) :
    (availRead r').toNat + (availWrite r').toNat = size.toNat - 1 := by
  obtain ⟨i, e, a, _⟩ := create_spec hm hc
  obtain ⟨r2, h, i2, e2, _⟩ := run_refines i ops hv
  rw [hr] at h
  simp at h
  obtain ⟨h1, _⟩ := h
  subst h1
  rw [avail_sum i2, e2, e]

/-- **C04.** After any history, a write either transfers all `len` bytes (exactly when `0 < len ≤` reported free
space) or returns 0 and leaves the ring untouched. -/
theorem write_all_or_nothing {malloc : BitVec 64 → Option Mem} (hm : MallocOk malloc) {size : BitVec 64} {r r' : Ring}
    (hc : create malloc size = some r) (ops : List Op) (hv : ∀ o ∈ ops, Spec.Valid o) {outs : List Out}
    (hr : run r ops = some (r', outs)) (src : List Byte) (len : BitVec 64) (hs : len.toNat ≤ src.length) :
    (0 < len.toNat ∧ len.toNat ≤ (availWrite r').toNat → ∃ r'', write r' src len = some (r'', len)) ∧
    (¬ (0 < len.toNat ∧ len.toNat ≤ (availWrite r').toNat) → write r' src len = some (r', 0#64)) := by
  obtain ⟨i, e, a, _⟩ := create_spec hm hc
  obtain ⟨r2, h, i2, e2, _⟩ := run_refines i ops hv
  rw [hr] at h
  simp at h
  obtain ⟨h1, _⟩ := h
  subst h1
  constructor
  · rintro ⟨h5, h6⟩
    obtain ⟨r'', ew, _⟩ := write_spec i2 src len hs
    rw [if_neg (by omega)] at ew
    exact ⟨r'', ew⟩
  · intro hn
    unfold write
    rw [if_pos]
    · rfl
    · rw [BitVec.lt_def, ← BitVec.toNat_inj]; simp; omega

/-- **C04.** Peeking never changes the ring (after any history, any length, with or without a target). -/
theorem peek_pure {malloc : BitVec 64 → Option Mem} (hm : MallocOk malloc) {size : BitVec 64} {r r' : Ring}
    (hc : create malloc size = some r) (ops : List Op) (hv : ∀ o ∈ ops, Spec.Valid o) {outs : List Out}
    (hr : run r ops = some (r', outs)) (t : Bool) (len : BitVec 64) :
    ∃ n d, peek r' t len = some (r', n, d) := by
  obtain ⟨i, e, a, _⟩ := create_spec hm hc
  obtain ⟨r2, h, i2, e2, _⟩ := run_refines i ops hv
  rw [hr] at h
  simp at h
  obtain ⟨h1, _⟩ := h
  subst h1
  unfold peek
  rw [readInternal_eq i2]
  split
  · exact ⟨_, _, rfl⟩
  · exact ⟨_, _, rfl⟩

/-- bytes accepted by the writes of a history, given the observed results -/
def accepted : List Op → List Out → List Byte
  | .write src _ :: os, x :: xs => src.take x.ret ++ accepted os xs
  | _ :: os, _ :: xs => accepted os xs
  | _, _ => []

/-- bytes delivered by the reads of a history (peeks excluded) -/
def delivered : List Op → List Out → List Byte
  | .read _ _ :: os, x :: xs => x.data ++ delivered os xs
  | _ :: os, _ :: xs => delivered os xs
  | _, _ => []

/-- history without discards, clears and NULL-target reads: nothing is thrown away on purpose -/
def Lossless : Op → Prop
  | .discard _ => False
  | .clear => False
  | .read t _ => t = true
  | _ => True

theorem spec_conservation (cap : Nat) (ops : List Op) (hl : ∀ o ∈ ops, Lossless o) (q : List Byte) :
    q ++ accepted ops (Spec.run cap q ops).2 = delivered ops (Spec.run cap q ops).2 ++ (Spec.run cap q ops).1 := by
  induction ops generalizing q with
  | nil => simp [Spec.run, accepted, delivered]
  | cons o os ih =>
    have hl' : ∀ o ∈ os, Lossless o := fun o ho => hl o (by simp [ho])
    have ho := hl o (by simp)
    cases o with
    | write src len =>
      simp only [Spec.run, Spec.step, accepted, delivered]
      split
      · simp [ih hl']
      · simp only [← List.append_assoc]; exact ih hl' _
    | read t len =>
      have : t = true := ho
      subst this
      simp only [Spec.run, Spec.step, accepted, delivered]
      split
      · simp [ih hl']
      · simp only [if_true, List.append_assoc, ← ih hl']
        rw [← List.append_assoc, List.take_append_drop]
    | peek t len =>
      simp only [Spec.run, Spec.step, accepted, delivered]
      split <;> exact ih hl' _
    | discard len => exact absurd ho id
    | clear => exact absurd ho id
    | availRead => simp only [Spec.run, Spec.step, accepted, delivered]; exact ih hl' _
    | availWrite => simp only [Spec.run, Spec.step, accepted, delivered]; exact ih hl' _

/-- **C03**, stated on the code's own results: over any history without discard/clear the bytes accepted by the
writes are, in order, the bytes delivered by the reads followed by the `available_read` bytes still held. -/
theorem no_loss_no_dup {malloc : BitVec 64 → Option Mem} (hm : MallocOk malloc) {size : BitVec 64} {r : Ring}
    (hc : create malloc size = some r) (ops : List Op) (hv : ∀ o ∈ ops, Spec.Valid o)
    (hl : ∀ o ∈ ops, Lossless o) :
    ∃ r' outs rest, run r ops = some (r', outs) ∧ rest.length = (availRead r').toNat ∧
      accepted ops outs = delivered ops outs ++ rest := by
  obtain ⟨i, e, a, _⟩ := create_spec hm hc
  obtain ⟨r', h, _, _, ea⟩ := run_refines i ops hv
  refine ⟨r', _, abs r', h, abs_length r', ?_⟩
  have := spec_conservation (r.size.toNat - 1) ops hl (abs r)
  rw [ea]
  rw [a] at this ⊢
  simpa using this

/-! Non-vacuity: a concrete history that fills, wraps around and rejects. -/
def exMalloc (n : BitVec 64) : Option Mem := if n.toNat < 2 ^ 63 then some (List.replicate n.toNat 0) else none

example : MallocOk exMalloc := by
  intro n m h
  unfold exMalloc at h
  split at h
  · simp at h; subst h; simp; omega
  · simp at h

example : ∃ r, create exMalloc 4#64 = some r := by
  refine ⟨_, by simp [create, exMalloc, createWithMem, structSize]; rfl⟩

example : (run { pbuf := [0,0,0,0], size := 4#64, offRead := 0#64, offWrite := 0#64 }
    [.write [1,2,3] 3#64, .write [9] 1#64, .read true 2#64, .write [4,5] 2#64, .peek true 3#64,
     .availWrite, .read true 3#64]).map (·.2) =
   some [⟨3, []⟩, ⟨0, []⟩, ⟨2, [1,2]⟩, ⟨2, []⟩, ⟨3, [3,4,5]⟩, ⟨0, []⟩, ⟨3, [3,4,5]⟩] := by decide

end Verif.RingBuf
