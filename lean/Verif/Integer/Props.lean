import Verif.Integer.Lemmas
/-!
# Properties of `integer.c` (claims C01, C02)
-/
namespace Verif.Integer

/-- C01: the test accepts exactly `2^1, 2^2, …` (documented oddity: 1 is not accepted). -/
theorem isPowerOfTwo_exact (i : BitVec 32) :
    isPowerOfTwo i = true ↔ ∃ k, 1 ≤ k ∧ i.toNat = 2 ^ k :=
  isPowerOfTwo_iff i

/-- C01: for `1 ≤ i ≤ 2^31` round-up returns the least power of two `2^k`, `k ≥ 1`, that is `≥ i`. -/
theorem roundup_least (i : BitVec 32) (h1 : 1 ≤ i.toNat) (h2 : i.toNat ≤ 2 ^ 31) :
    ∃ k, 1 ≤ k ∧ (roundup i).toNat = 2 ^ k ∧ i.toNat ≤ (roundup i).toNat ∧
      ∀ m, 1 ≤ m → i.toNat ≤ 2 ^ m → (roundup i).toNat ≤ 2 ^ m := by
  by_cases hp : isPowerOfTwo i = true
  · obtain ⟨k, hk, e⟩ := (isPowerOfTwo_iff i).1 hp
    rw [roundup_of_pow i hp]
    exact ⟨k, hk, e, Nat.le_refl _, fun m _ h => h⟩
  · have hp' : isPowerOfTwo i = false := by simpa using hp
    have hlt : i.toNat < 2 ^ (i.toNat.log2 + 1) := Nat.lt_log2_self
    have hge : 2 ^ i.toNat.log2 ≤ i.toNat := Nat.log2_self_le (by omega)
    -- `i` is not `2^31` (that is a power of two), so the exponent stays below 32
    have hL : i.toNat.log2 < 31 := by
      rcases Nat.lt_or_ge i.toNat.log2 31 with h | h
      · exact h
      · exfalso
        have : 2 ^ 31 ≤ 2 ^ i.toNat.log2 := Nat.pow_le_pow_right (by omega) h
        exact hp ((isPowerOfTwo_iff i).2 ⟨31, by omega, by omega⟩)
    have hb : 2 ^ (i.toNat.log2 + 1) ≤ 2 ^ 31 := Nat.pow_le_pow_right (by omega) (by omega)
    have e : (roundup i).toNat = 2 ^ (i.toNat.log2 + 1) := by
      rw [roundup_toNat_of_not_pow i h1 hp', Nat.mod_eq_of_lt (by omega)]
    refine ⟨_, by omega, e, by omega, ?_⟩
    intro m hm hle
    rw [e]
    apply Nat.pow_le_pow_right (by omega)
    rcases Nat.lt_or_ge i.toNat.log2 m with h | h
    · omega
    · exfalso
      have h3 : 2 ^ m ≤ 2 ^ i.toNat.log2 := Nat.pow_le_pow_right (by omega) h
      have : i.toNat = 2 ^ m := by omega
      exact hp ((isPowerOfTwo_iff i).2 ⟨m, hm, this⟩)

example : (roundup 100#32).toNat = 128 ∧ (roundup 1#32).toNat = 2 ∧
    (roundup 0x80000000#32).toNat = 2 ^ 31 := by decide

/-- C01: 0 maps to 0, as documented. -/
theorem roundup_zero : roundup 0#32 = 0#32 := by decide

/-- C01: above `2^31` no 32-bit power of two exists and the result is 0 (silent overflow). -/
theorem roundup_overflow (i : BitVec 32) (h : 2 ^ 31 < i.toNat) : roundup i = 0#32 := by
  have hi := i.isLt
  have hL : i.toNat.log2 = 31 := by
    have h1 : i.toNat.log2 < 32 := (Nat.log2_lt (by omega)).2 i.isLt
    have h2 : ¬ i.toNat.log2 < 31 := by
      rw [Nat.log2_lt (by omega)]; omega
    omega
  have hp : isPowerOfTwo i = false := by
    rw [Bool.eq_false_iff]
    intro hc
    obtain ⟨k, hk, e⟩ := (isPowerOfTwo_iff i).1 hc
    rcases Nat.lt_or_ge 31 k with h3 | h3
    · have : 2 ^ 32 ≤ 2 ^ k := Nat.pow_le_pow_right (by omega) h3
      omega
    · have : 2 ^ k ≤ 2 ^ 31 := Nat.pow_le_pow_right (by omega) h3
      omega
  apply BitVec.eq_of_toNat_eq
  rw [roundup_toNat_of_not_pow i (by omega) hp, hL]
  rfl

example : 2 ^ 31 < (0x80000001#32).toNat := by decide

/-- C02, guarded: for `2 ≤ i ≤ 2^31` round-down returns the largest power of two `≤ i`.
The unguarded claim (all `i ≥ 2`) is false, see `rounddown_not_largest`. -/
theorem rounddown_largest_partial (i : BitVec 32) (h1 : 2 ≤ i.toNat) (h2 : i.toNat ≤ 2 ^ 31) :
    ∃ k, (rounddown i).toNat = 2 ^ k ∧ (rounddown i).toNat ≤ i.toNat ∧
      ∀ m, 2 ^ m ≤ i.toNat → 2 ^ m ≤ (rounddown i).toNat := by
  have hn : ¬ i < 2#32 := by rw [BitVec.lt_def]; simp; omega
  by_cases hp : isPowerOfTwo i = true
  · obtain ⟨k, hk, e⟩ := (isPowerOfTwo_iff i).1 hp
    have er : rounddown i = i := by
      unfold rounddown; rw [if_neg hn]; simp [roundup_of_pow i hp]
    rw [er]
    exact ⟨k, e, Nat.le_refl _, fun m h => h⟩
  · have hp' : isPowerOfTwo i = false := by simpa using hp
    have hlt : i.toNat < 2 ^ (i.toNat.log2 + 1) := Nat.lt_log2_self
    have hge : 2 ^ i.toNat.log2 ≤ i.toNat := Nat.log2_self_le (by omega)
    have hL : i.toNat.log2 < 31 := by
      rcases Nat.lt_or_ge i.toNat.log2 31 with h | h
      · exact h
      · exfalso
        have : 2 ^ 31 ≤ 2 ^ i.toNat.log2 := Nat.pow_le_pow_right (by omega) h
        exact hp ((isPowerOfTwo_iff i).2 ⟨31, by omega, by omega⟩)
    have hb : 2 ^ (i.toNat.log2 + 1) ≤ 2 ^ 31 := Nat.pow_le_pow_right (by omega) (by omega)
    have e : (roundup i).toNat = 2 ^ (i.toNat.log2 + 1) := by
      rw [roundup_toNat_of_not_pow i (by omega) hp', Nat.mod_eq_of_lt (by omega)]
    have ne : (roundup i == i) = false := by
      rw [beq_eq_false_iff_ne]
      intro h
      have := congrArg BitVec.toNat h
      omega
    have er : (rounddown i).toNat = 2 ^ i.toNat.log2 := by
      unfold rounddown
      rw [if_neg hn]
      simp only [ne]
      simp only [Bool.false_eq_true, if_false]
      rw [BitVec.toNat_ushiftRight, e, Nat.shiftRight_eq_div_pow, Nat.pow_succ]
      omega
    refine ⟨_, er, by omega, ?_⟩
    intro m hm
    rw [er]
    apply Nat.pow_le_pow_right (by omega)
    rcases Nat.lt_or_ge i.toNat.log2 m with h | h
    · have : 2 ^ (i.toNat.log2 + 1) ≤ 2 ^ m := Nat.pow_le_pow_right (by omega) h
      omega
    · exact h

example : (rounddown 127#32).toNat = 64 ∧ (rounddown 2#32).toNat = 2 := by decide

/-- Below 2 the answer is 0 (for 1 too, although `2^0 ≤ 1`: the function deals with powers from 2 on). -/
theorem rounddown_small (i : BitVec 32) (h : i.toNat < 2) : rounddown i = 0#32 := by
  unfold rounddown
  rw [if_pos]
  rw [BitVec.lt_def]; simpa using h

/-- C02 is violated by the code for *every* `i > 2^31`: the result is 0 although `2^31 ≤ i`. -/
theorem rounddown_zero_above (i : BitVec 32) (h : 2 ^ 31 < i.toNat) : rounddown i = 0#32 := by
  have hn : ¬ i < 2#32 := by rw [BitVec.lt_def]; simp; omega
  unfold rounddown
  rw [if_neg hn, roundup_overflow i h]
  have : (0#32 == i) = false := by
    rw [beq_eq_false_iff_ne]
    intro hc; rw [← hc] at h; simp at h
  simp [this]

/-- C02, negation: "the largest power of two `≤ i`" fails for `i = 2^31 + 1`. -/
theorem rounddown_not_largest :
    ¬ ∀ i : BitVec 32, 2 ≤ i.toNat → ∀ m, 2 ^ m ≤ i.toNat → 2 ^ m ≤ (rounddown i).toNat := by
  intro h
  have h1 := h 0x80000001#32 (by decide) 31 (by decide)
  rw [rounddown_zero_above _ (by decide)] at h1
  simp at h1

end Verif.Integer
