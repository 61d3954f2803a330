import Verif.RingBuffer.Lemmas
/-!
# Properties of `ringbuffer.c` (claims C05, C06)
-/
namespace Verif.RingBuffer

/-- Contract of `calloc`: the object returned has exactly the requested size. -/
def CallocOk (calloc : BitVec 32 → Option Mem) : Prop :=
  ∀ n m, calloc n = some m → m.length = n.toNat

theorem roundup_spec (x : BitVec 32) (h1 : 1 ≤ x.toNat) (hp : isPow2 x = false) (h2 : x.toNat ≤ 2 ^ 30) :
    ∃ up k, roundup x = some up ∧ k ≤ 29 ∧ up.toNat = 2 ^ (k + 1) ∧ 2 ^ k ≤ x.toNat ∧ x.toNat < 2 ^ (k + 1) := by
  have hnp : ∀ k, 1 ≤ k → x.toNat ≠ 2 ^ k := by
    intro k hk e
    rw [isPow2_eq] at hp
    have := (Integer.isPowerOfTwo_iff x).2 ⟨k, hk, e⟩
    simp [hp] at this
  have hlt : x.toNat < 2 ^ (x.toNat.log2 + 1) := Nat.lt_log2_self
  have hge : 2 ^ x.toNat.log2 ≤ x.toNat := Nat.log2_self_le (by omega)
  have hL : x.toNat.log2 < 30 := by
    rw [Nat.log2_lt (by omega)]
    have := hnp 30 (by omega)
    omega
  have hb : 2 ^ (x.toNat.log2 + 1) ≤ 2 ^ 30 := Nat.pow_le_pow_right (by omega) (by omega)
  refine ⟨BitVec.ofNat 32 (2 ^ (x.toNat.log2 + 1)), x.toNat.log2, ?_, by omega, ?_, hge, hlt⟩
  · unfold roundup
    have hz : ¬ (x = 0#32 ∨ isPow2 x = true) := by
      rintro (h | h)
      · rw [h] at h1; simp at h1
      · simp [hp] at h
    rw [if_neg hz, shiftCount_eq, if_pos hL, Nat.shiftLeft_eq, Nat.pow_succ, Nat.mul_comm]
  · rw [BitVec.toNat_ofNat, Nat.mod_eq_of_lt (by omega)]

theorem fresh_inv {k : Nat} (hk : 1 ≤ k) (hk2 : k ≤ 31) {size : BitVec 32} (e : size.toNat = 2 ^ k) {m : Mem}
    (hl : size.toNat ≤ m.length) :
    Inv { inp := 0#32, out := 0#32, size := size, buf := m } ∧
    abs { inp := 0#32, out := 0#32, size := size, buf := m } = [] := by
  refine ⟨⟨⟨k, hk, hk2, e⟩, by simp, hl⟩, ?_⟩
  simp [abs, availRead, Mem.cyc]

/-- **C06** (`RingBuffer_create_with_mem`).  For every caller object of the stated size with at most
`2^30` bytes behind the header: the call returns NULL exactly when fewer than 28 bytes were given; otherwise the
ring is empty, its size is a power of two, header + ring fit in the caller's memory, and more than half of the
space behind the header is used. -/
theorem createWithMem_spec (m : Mem) (n : BitVec 32) (hm : m.length = n.toNat) (hn : n.toNat ≤ 2 ^ 30 + 24) :
    (n.toNat < 28 → createWithMem (some m) n = some none) ∧
    (28 ≤ n.toNat → ∃ r, createWithMem (some m) n = some (some r) ∧ Inv r ∧ abs r = [] ∧
      r.size.toNat + 24 ≤ n.toNat ∧ n.toNat - 24 < 2 * r.size.toNat) := by
  have e28 : (structSize + 4#32).toNat = 28 := rfl
  have e24 : structSize.toNat = 24 := rfl
  constructor
  · intro h
    unfold createWithMem
    simp only []
    rw [if_pos (by rw [BitVec.lt_def, e28]; exact h)]
  · intro h
    unfold createWithMem
    simp only []
    rw [if_neg (by rw [BitVec.lt_def, e28]; omega)]
    have ers : (n - structSize).toNat = n.toNat - 24 := by rw [BitVec.toNat_sub, e24]; omega
    have hml : (m.drop structSize.toNat).length = n.toNat - 24 := by rw [List.length_drop, e24, hm]
    by_cases hp : isPow2 (n - structSize) = true
    · rw [if_pos hp]
      rw [isPow2_eq] at hp
      obtain ⟨k, hk, ek⟩ := (Integer.isPowerOfTwo_iff _).1 hp
      have hk2 : k ≤ 31 := by
        rcases Nat.lt_or_ge k 32 with h3 | h3
        · omega
        · have : 2 ^ 32 ≤ 2 ^ k := Nat.pow_le_pow_right (by omega) h3
          have := (n - structSize).isLt; omega
      obtain ⟨i, a⟩ := fresh_inv hk hk2 ek (m := m.drop structSize.toNat) (by omega)
      exact ⟨_, rfl, i, a, by simp only []; omega, by simp only []; omega⟩
    · have hp' : isPow2 (n - structSize) = false := by simpa using hp
      rw [if_neg hp]
      obtain ⟨up, k, e, hk, eu, h3, h4⟩ := roundup_spec (n - structSize) (by omega) hp' (by omega)
      rw [e]
      simp only []
      have es : (up >>> 1).toNat = 2 ^ k := by
        rw [BitVec.toNat_ushiftRight, eu, Nat.shiftRight_eq_div_pow, Nat.pow_succ]; omega
      have hk1 : 1 ≤ k := by
        rcases Nat.eq_zero_or_pos k with h5 | h5
        · subst h5; simp at h4; omega
        · exact h5
      rw [Nat.pow_succ] at h4
      obtain ⟨i, a⟩ := fresh_inv hk1 (by omega) es (m := m.drop structSize.toNat) (by omega)
      exact ⟨_, rfl, i, a, by simp only []; omega, by simp only []; omega⟩

example : ∃ r, createWithMem (some (List.replicate 100 0)) 100#32 = some (some r) ∧ r.size.toNat = 64 := by
  obtain ⟨r, e, i, _, h1, h2⟩ := (createWithMem_spec (List.replicate 100 0) 100#32 (by simp) (by simp)).2 (by simp)
  refine ⟨r, e, ?_⟩
  obtain ⟨k, _, _, ek⟩ := i.pow
  simp at h1 h2
  have : k = 6 := by
    have h3 : k < 7 := by
      rcases Nat.lt_or_ge k 7 with h | h
      · exact h
      · have : 2 ^ 7 ≤ 2 ^ k := Nat.pow_le_pow_right (by omega) h
        omega
    have h4 : 6 ≤ k := by
      rcases Nat.lt_or_ge k 6 with h | h
      · have : 2 ^ k ≤ 2 ^ 5 := Nat.pow_le_pow_right (by omega) (by omega)
        omega
      · exact h
    omega
  rw [ek, this]

/-- Beyond `2^30` bytes (and not an exact power of two) the size computation is a signed shift overflow:
undefined behaviour. -/
theorem createWithMem_ub (m : Mem) (n : BitVec 32) (hn : 2 ^ 30 + 24 < n.toNat)
    (hp : isPow2 (n - structSize) = false) : createWithMem (some m) n = none := by
  have e28 : (structSize + 4#32).toNat = 28 := rfl
  have e24 : structSize.toNat = 24 := rfl
  have ers : (n - structSize).toNat = n.toNat - 24 := by rw [BitVec.toNat_sub, e24]; omega
  unfold createWithMem
  simp only []
  rw [if_neg (by rw [BitVec.lt_def, e28]; omega), if_neg (by simp [hp])]
  have : roundup (n - structSize) = none := by
    unfold roundup
    have hz : ¬ (n - structSize = 0#32 ∨ isPow2 (n - structSize) = true) := by
      rintro (h | h)
      · have := congrArg BitVec.toNat h; rw [ers] at this; simp at this; omega
      · simp [hp] at h
    rw [if_neg hz, shiftCount_eq, if_neg]
    rw [Nat.log2_lt (by omega)]
    omega
  rw [this]

example : createWithMem (some []) 0x40000019#32 = none :=
  createWithMem_ub _ _ (by decide) (by decide)

/-- **C06** (`RingBuffer_create`).  For `3 ≤ n ≤ 2^30`, unless the allocation fails, the ring is empty, lies in the
allocated object and has a power-of-two size `≥ n` and `< 2n`. -/
theorem create_spec {calloc : BitVec 32 → Option Mem} (hc : CallocOk calloc) (n : BitVec 32)
    (h1 : 3 ≤ n.toNat) (h2 : n.toNat ≤ 2 ^ 30) :
    create calloc n = some none ∨
    ∃ r, create calloc n = some (some r) ∧ Inv r ∧ abs r = [] ∧ n.toNat ≤ r.size.toNat ∧ r.size.toNat < 2 * n.toNat := by
  have e28 : (structSize + 4#32).toNat = 28 := rfl
  have e24 : structSize.toNat = 24 := rfl
  -- the rounded size
  obtain ⟨bs, k, eb, hk1, hk2, ebs, h3, h4⟩ : ∃ bs k, (if isPow2 n then some n else roundup n) = some bs ∧
      2 ≤ k ∧ k ≤ 30 ∧ bs.toNat = 2 ^ k ∧ n.toNat ≤ bs.toNat ∧ bs.toNat < 2 * n.toNat := by
    by_cases hp : isPow2 n = true
    · rw [if_pos hp]
      rw [isPow2_eq] at hp
      obtain ⟨k, hk, ek⟩ := (Integer.isPowerOfTwo_iff _).1 hp
      refine ⟨n, k, rfl, ?_, ?_, ek, by omega, by omega⟩
      · rcases Nat.lt_or_ge k 2 with h | h
        · have : k = 1 := by omega
          subst this; simp at ek; omega
        · exact h
      · rcases Nat.lt_or_ge 30 k with h | h
        · have : 2 ^ 31 ≤ 2 ^ k := Nat.pow_le_pow_right (by omega) h
          omega
        · exact h
    · have hp' : isPow2 n = false := by simpa using hp
      rw [if_neg hp]
      obtain ⟨up, k, e, hk, eu, h3, h4⟩ := roundup_spec n (by omega) hp' h2
      refine ⟨up, k + 1, e, ?_, by omega, eu, by omega, ?_⟩
      · rcases Nat.lt_or_ge k 1 with h | h
        · have : k = 0 := by omega
          subst this; simp at h4; omega
        · omega
      · rw [eu, Nat.pow_succ]
        have : n.toNat ≠ 2 ^ k := by
          intro e2
          rcases Nat.lt_or_ge k 1 with h | h
          · have : k = 0 := by omega
            subst this; simp at e2; omega
          · rw [isPow2_eq] at hp'
            have := (Integer.isPowerOfTwo_iff n).2 ⟨k, h, e2⟩
            simp [hp'] at this
        omega
  have hpow4 : 4 ≤ bs.toNat := by
    rw [ebs]; exact Nat.pow_le_pow_right (n := 2) (i := 2) (by omega) hk1
  have hpow30 : bs.toNat ≤ 2 ^ 30 := by
    rw [ebs]; exact Nat.pow_le_pow_right (by omega) hk2
  unfold create
  rw [if_neg (by rw [BitVec.lt_def]; simp; omega), eb]
  simp only []
  cases hca : calloc (structSize + bs) with
  | none => exact Or.inl rfl
  | some m =>
    right
    have hml := hc _ _ hca
    have hex : (structSize + bs).toNat = 24 + bs.toNat := by rw [BitVec.toNat_add, e24]; omega
    simp only [createWithMem]
    rw [if_neg (by rw [BitVec.lt_def, e28]; omega)]
    have ers : structSize + bs - structSize = bs := by
      apply BitVec.eq_of_toNat_eq; rw [BitVec.toNat_sub, hex, e24]; omega
    rw [ers]
    have hp : isPow2 bs = true := by
      rw [isPow2_eq]; exact (Integer.isPowerOfTwo_iff bs).2 ⟨k, by omega, ebs⟩
    rw [if_pos hp]
    obtain ⟨i, a⟩ := fresh_inv (by omega) (by omega) ebs (m := m.drop structSize.toNat)
      (by rw [List.length_drop, hml, hex, e24]; omega)
    exact ⟨_, rfl, i, a, h3, h4⟩

/-- Documented power-of-two size 2 is never granted: `RingBuffer_create(2)` always returns NULL. -/
theorem create_two_null (calloc : BitVec 32 → Option Mem) : create calloc 2#32 = some none := by
  unfold create
  have hp : isPow2 2#32 = true := by decide
  simp only [hp, if_true]
  rw [if_neg (by decide)]
  cases calloc (structSize + 2#32) with
  | none => rfl
  | some m => simp [createWithMem, structSize]

theorem run_refines {r : Ring} (h : Inv r) (ops : List Op) (hv : ∀ o ∈ ops, Spec.Valid o) :
    ∃ r', run r ops = some (r', (Spec.run r.size.toNat (abs r) ops).2) ∧ Inv r' ∧ r'.size = r.size ∧
      abs r' = (Spec.run r.size.toNat (abs r) ops).1 := by
  induction ops generalizing r with
  | nil => exact ⟨r, rfl, h, rfl, rfl⟩
  | cons o os ih =>
    obtain ⟨r1, e1, i1, s1, a1⟩ := step_refines h o (hv o (by simp))
    obtain ⟨r2, e2, i2, s2, a2⟩ := ih i1 (fun o ho => hv o (by simp [ho]))
    rw [s1, a1] at e2 a2
    refine ⟨r2, ?_, i2, by rw [s2, s1], ?_⟩
    · simp [run, e1, e2, Spec.run]
    · rw [a2]; rfl

/-- **C05** for rings made by `RingBuffer_create`: for every size, every allocator and every history of calls
(arbitrarily long, so the 32-bit counters wrap any number of times) with readable sources, no call is undefined
behaviour and all results are those of a byte FIFO whose capacity is the ring's real size. -/
theorem refines_fifo {calloc : BitVec 32 → Option Mem} (hc : CallocOk calloc) (n : BitVec 32)
    (h1 : 3 ≤ n.toNat) (h2 : n.toNat ≤ 2 ^ 30) {r : Ring} (hr : create calloc n = some (some r))
    (ops : List Op) (hv : ∀ o ∈ ops, Spec.Valid o) :
    ∃ r', run r ops = some (r', (Spec.run r.size.toNat [] ops).2) := by
  rcases create_spec hc n h1 h2 with h | ⟨r0, h, i, a, _⟩
  · rw [hr] at h; simp at h
  · rw [hr] at h
    simp at h
    subst h
    obtain ⟨r', e, _⟩ := run_refines i ops hv
    rw [a] at e
    exact ⟨r', e⟩

/-- **C05** for rings made by `RingBuffer_create_with_mem`. -/
theorem refines_fifo_with_mem (m : Mem) (n : BitVec 32) (hm : m.length = n.toNat) (hn : n.toNat ≤ 2 ^ 30 + 24)
    {r : Ring} (hr : createWithMem (some m) n = some (some r))
    (ops : List Op) (hv : ∀ o ∈ ops, Spec.Valid o) :
    ∃ r', run r ops = some (r', (Spec.run r.size.toNat [] ops).2) := by
  obtain ⟨h1, h2⟩ := createWithMem_spec m n hm hn
  rcases Nat.lt_or_ge n.toNat 28 with h | h
  · rw [h1 h] at hr; simp at hr
  · obtain ⟨r0, e, i, a, _⟩ := h2 h
    rw [e] at hr
    simp at hr
    subst hr
    obtain ⟨r', e, _⟩ := run_refines i ops hv
    rw [a] at e
    exact ⟨r', e⟩

/-- **C05** (wrap-around made explicit): whatever value the free-running counters have reached — in particular
with `inp` already wrapped past `2^32` below `out` — the ring behaves as a FIFO holding `inp - out` bytes. -/
theorem refines_fifo_any_counters (r : Ring) (k : Nat) (hk : 1 ≤ k) (hk2 : k ≤ 31)
    (hs : r.size.toNat = 2 ^ k) (hb : r.size.toNat ≤ r.buf.length)
    (hu : (r.inp - r.out).toNat ≤ r.size.toNat) (ops : List Op) (hv : ∀ o ∈ ops, Spec.Valid o) :
    ∃ q : List Byte, q.length = (r.inp - r.out).toNat ∧
      ∃ r', run r ops = some (r', (Spec.run (2 ^ k) q ops).2) := by
  obtain ⟨r', e, _⟩ := run_refines (r := r) ⟨⟨k, hk, hk2, hs⟩, hu, hb⟩ ops hv
  rw [hs] at e
  exact ⟨abs r, abs_length r, r', e⟩

/-! Non-vacuity: `inp` has wrapped past `2^32`, the data wraps around the buffer end, a write is cut short. -/
example : (run { inp := 1#32, out := 0xfffffffe#32, size := 4#32, buf := [3,0,1,2] }
    [.availRead, .write (some [7,8,9]) 3#32, .isFull, .peek true 2#32, .read true 9#32, .isEmpty]).map (·.2) =
    some [⟨3, []⟩, ⟨1, []⟩, ⟨1, []⟩, ⟨2, [1,2]⟩, ⟨4, [1,2,3,7]⟩, ⟨1, []⟩] := by decide

end Verif.RingBuffer
