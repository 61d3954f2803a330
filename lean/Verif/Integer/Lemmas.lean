import Verif.Integer.Model
/-! Helper lemmas for `integer.c`. -/
namespace Verif.Integer

theorem land_pred_eq_zero_iff (n : Nat) (h : 0 < n) :
    n &&& (n - 1) = 0 ↔ ∃ k, n = 2 ^ k := by
  induction n using Nat.strongRecOn with
  | ind n ih =>
    obtain ⟨m, hm⟩ : ∃ m, n = 2 * m ∨ n = 2 * m + 1 := ⟨n / 2, by omega⟩
    rcases hm with hm | hm
    · have hm0 : 0 < m := by omega
      have e : n &&& (n - 1) = 2 * (m &&& (m - 1)) := by
        apply Nat.eq_of_testBit_eq
        intro i
        cases i with
        | zero => simp [hm]
        | succ i =>
          have h1 : n / 2 = m := by omega
          have h2 : (n - 1) / 2 = m - 1 := by omega
          rw [Nat.testBit_and]
          simp only [Nat.testBit_succ, h1, h2]
          simp
      rw [e]
      constructor
      · intro h0
        have : m &&& (m - 1) = 0 := by omega
        obtain ⟨k, hk⟩ := (ih m (by omega) hm0).1 this
        exact ⟨k + 1, by rw [hm, hk, Nat.pow_succ]; omega⟩
      · rintro ⟨k, hk⟩
        cases k with
        | zero => omega
        | succ k =>
          rw [Nat.pow_succ] at hk
          rw [(ih m (by omega) hm0).2 ⟨k, by omega⟩]
    · have e : n &&& (n - 1) = 2 * m := by
        apply Nat.eq_of_testBit_eq
        intro i
        cases i with
        | zero => simp [hm]
        | succ i =>
          have h1 : n / 2 = m := by omega
          have h2 : (n - 1) / 2 = m := by omega
          rw [Nat.testBit_and]
          simp only [Nat.testBit_succ, h1, h2]
          simp
      rw [e]
      constructor
      · intro h0; exact ⟨0, by simp; omega⟩
      · rintro ⟨k, hk⟩
        cases k with
        | zero => simp at hk; omega
        | succ k => rw [Nat.pow_succ] at hk; omega

theorem isPowerOfTwo_iff (i : BitVec 32) :
    isPowerOfTwo i = true ↔ ∃ k, 1 ≤ k ∧ i.toNat = 2 ^ k := by
  have hi := i.isLt
  have key : (1 < i.toNat) → ((i &&& (i - 1#32)) = 0#32 ↔ ∃ k, i.toNat = 2 ^ k) := by
    intro h
    rw [← land_pred_eq_zero_iff _ (by omega)]
    rw [← BitVec.toNat_inj, BitVec.toNat_and, BitVec.toNat_sub]
    have : (2 ^ 32 - (1#32).toNat + i.toNat) % 2 ^ 32 = i.toNat - 1 := by
      simp; omega
    rw [this]; simp
  unfold isPowerOfTwo
  rw [Bool.and_eq_true, decide_eq_true_eq, BitVec.lt_def, beq_iff_eq]
  have h1 : (1#32).toNat = 1 := rfl
  rw [h1]
  constructor
  · rintro ⟨h, h2⟩
    obtain ⟨k, hk⟩ := (key h).1 h2
    refine ⟨k, ?_, hk⟩
    cases k with
    | zero => simp at hk; omega
    | succ k => omega
  · rintro ⟨k, hk, e⟩
    have : 1 < i.toNat := by
      rw [e]; exact Nat.one_lt_two_pow (by omega)
    exact ⟨this, (key this).2 ⟨k, e⟩⟩

/-- `y` has bit `j` set iff `x` has one of the bits `j .. j+n-1` set. -/
def Smeared (n : Nat) (x y : BitVec 32) : Prop :=
  ∀ j, y.getLsbD j = true ↔ ∃ k, k < n ∧ x.getLsbD (j + k) = true

theorem Smeared.step {n : Nat} {x y : BitVec 32} (h : Smeared n x y) :
    Smeared (n + n) x (y ||| (y >>> n)) := by
  intro j
  rw [BitVec.getLsbD_or, BitVec.getLsbD_ushiftRight, Bool.or_eq_true, h j, h (n + j)]
  constructor
  · rintro (⟨k, hk, e⟩ | ⟨k, hk, e⟩)
    · exact ⟨k, by omega, e⟩
    · exact ⟨n + k, by omega, by rw [← e]; congr 1; omega⟩
  · rintro ⟨k, hk, e⟩
    by_cases hkn : k < n
    · exact Or.inl ⟨k, hkn, e⟩
    · exact Or.inr ⟨k - n, by omega, by rw [← e]; congr 1; omega⟩

theorem smear_smeared (i : BitVec 32) : Smeared 32 i (smear i) := by
  have h0 : Smeared 1 i i := by
    intro j
    constructor
    · intro h; exact ⟨0, by omega, h⟩
    · rintro ⟨k, hk, e⟩
      have : k = 0 := by omega
      subst this; exact e
  exact h0.step.step.step.step.step

theorem smear_toNat (i : BitVec 32) (h : 0 < i.toNat) :
    (smear i).toNat = 2 ^ (i.toNat.log2 + 1) - 1 := by
  apply Nat.eq_of_testBit_eq
  intro j
  rw [Nat.testBit_two_pow_sub_one]
  have hs := smear_smeared i j
  rw [BitVec.getLsbD] at hs
  have hL : i.toNat.log2 < 32 := (Nat.log2_lt (by omega)).2 i.isLt
  by_cases hj : j < i.toNat.log2 + 1
  · rw [decide_eq_true hj]
    rw [hs]
    refine ⟨i.toNat.log2 - j, by omega, ?_⟩
    rw [show j + (i.toNat.log2 - j) = i.toNat.log2 by omega, BitVec.getLsbD]
    exact Nat.testBit_log2 (by omega)
  · rw [decide_eq_false hj]
    apply Bool.eq_false_iff.2
    intro hc
    obtain ⟨k, _, e⟩ := hs.1 hc
    rw [BitVec.getLsbD] at e
    have h1 := Nat.ge_two_pow_of_testBit e
    have h2 : i.toNat < 2 ^ (i.toNat.log2 + 1) := Nat.lt_log2_self
    have h3 : 2 ^ (i.toNat.log2 + 1) ≤ 2 ^ (j + k) := Nat.pow_le_pow_right (by omega) (by omega)
    omega

end Verif.Integer

namespace Verif.Integer

/-- value of `roundup` off the powers of two -/
theorem roundup_toNat_of_not_pow (i : BitVec 32) (h : 0 < i.toNat) (hp : isPowerOfTwo i = false) :
    (roundup i).toNat = 2 ^ (i.toNat.log2 + 1) % 2 ^ 32 := by
  unfold roundup
  rw [if_neg (by rw [BitVec.lt_def]; simp; omega), if_neg (by simp [hp])]
  rw [BitVec.toNat_add, smear_toNat i h]
  have : 0 < 2 ^ (i.toNat.log2 + 1) := Nat.two_pow_pos _
  congr 1
  simp; omega

theorem roundup_of_pow (i : BitVec 32) (hp : isPowerOfTwo i = true) : roundup i = i := by
  obtain ⟨k, _, e⟩ := (isPowerOfTwo_iff i).1 hp
  have : 0 < 2 ^ k := Nat.two_pow_pos _
  unfold roundup
  rw [if_neg (by rw [BitVec.lt_def]; simp; omega), if_pos hp]

end Verif.Integer
