import Verif.StrDouble.Text
/-! # The value read back, as a rational number -/
namespace Verif.StrDouble
open Verif.StrParams Verif.Strings

/-- the double for a magnitude and a sign -/
def ofMag (lib : CLib) (neg : Bool) (q : ℚ) : Dbl :=
  match lib.near q with
  | some (m, e) => .fin neg m e
  | none => .inf neg

theorem toDbl_num (lib : CLib) (neg : Bool) (n b : Nat) (e : Int) :
    toDbl lib neg (.num n b e) = ofMag lib neg ((n : ℚ) * (b : ℚ) ^ e) := rfl

theorem mag_nonneg (m : Nat) (e : Int) : 0 ≤ mag m e := mul_nonneg (Nat.cast_nonneg m) (zpow_nonneg (by norm_num) e)

theorem mag_large {m : Nat} {e : Int} (h : IsDouble m e) (hm : 2 ^ 53 ≤ mag m e) : ∃ x : Nat, mag m e = x := by
  by_cases he : 0 ≤ e
  · obtain ⟨k, rfl⟩ := Int.eq_ofNat_of_zero_le he
    exact ⟨m * 2 ^ k, by unfold mag; push_cast; rw [zpow_natCast]⟩
  · exfalso
    have h1 : (2 : ℚ) ^ e ≤ 1 := zpow_le_one_of_nonpos₀ (by norm_num) (by omega)
    have h2 : (m : ℚ) < 2 ^ 53 := by exact_mod_cast h.1
    have h3 : mag m e ≤ m := by
      unfold mag
      have : (0 : ℚ) ≤ m := by positivity
      nlinarith
    linarith

theorem round_int (lib : CLib) (x : Nat) : lib.round (x : ℚ) = x := by
  have h := lib.round_near x (by positivity)
  rw [abs_le] at h
  have h1 : lib.round (x : ℚ) < x + 1 := by
    have : (lib.round (x : ℚ) : ℚ) < ((x + 1 : ℕ) : ℚ) := by push_cast; linarith [h.2]
    exact_mod_cast this
  have h2 : x < lib.round (x : ℚ) + 1 := by
    have : (x : ℚ) < ((lib.round (x : ℚ) + 1 : ℕ) : ℚ) := by push_cast; linarith [h.1]
    exact_mod_cast this
  omega

/-- the number of characters of the sign -/
def sg (neg : Bool) : Nat := if neg then 1 else 0

theorem sign_length (neg : Bool) : (signText neg).length = sg neg := by cases neg <;> rfl

theorem dec_digit (n : Nat) : ∀ c ∈ decText n, isDigit c := decText_digit n

theorem val_decText (n : Nat) : val 0 (decText n) = n := decText_value n

/-- text that fits -/
theorem read_all (lib : CLib) (neg : Bool) (n : Nat) :
    strtod lib (signText neg ++ decText (n / 10 ^ 10) ++ [46] ++ fracText 10 (n % 10 ^ 10)) =
      (ofMag lib neg ((n : ℚ) / 10 ^ 10), []) := by
  have h := strtod_point lib neg (decText (n / 10 ^ 10)) (fracText 10 (n % 10 ^ 10)) (dec_digit _) (fracText_digit _ _)
    (decText_ne_nil _)
  simp only [List.append_assoc, List.cons_append, List.nil_append] at h ⊢
  rw [h, toDbl_num, val_append, val_acc, val_decText, fracText_length, fracText_val _ _ (Nat.mod_lt _ (by decide)),
    Nat.div_add_mod']
  congr 2

/-- text of an integer, some zeros after the point kept -/
theorem read_zeros (lib : CLib) (neg : Bool) (x j : Nat) :
    strtod lib (signText neg ++ (decText x ++ 46 :: List.replicate j 48)) = (ofMag lib neg (x : ℚ), []) := by
  have hz : ∀ c ∈ List.replicate j (48 : Byte), isDigit c := by
    intro c hc
    rw [List.eq_of_mem_replicate hc]
    unfold isDigit; decide
  rw [strtod_point lib neg _ _ (dec_digit _) hz (decText_ne_nil _), toDbl_num, val_append, val_acc, val_decText,
    ← fracText_zero, fracText_val _ _ (by positivity), fracText_length]
  congr 2
  push_cast
  rw [zpow_neg, zpow_natCast, add_zero, mul_assoc, mul_inv_cancel₀ (by positivity), mul_one]

/-- the text of an integer value, cut -/
theorem cut_int (neg : Bool) (x : Nat) :
    (signText neg ++ decText x ++ [46] ++ fracText 10 0).take 31 =
      if sg neg + (decText x).length ≤ 30 then
        signText neg ++ (decText x ++ 46 :: List.replicate (min 10 (30 - (sg neg + (decText x).length))) 48)
      else signText neg ++ (decText x).take (31 - sg neg) := by
  rw [fracText_zero]
  simp only [List.append_assoc, List.cons_append, List.nil_append]
  rw [List.take_append, sign_length, List.take_append, List.take_of_length_le (l := signText neg) (by
    rw [sign_length]; cases neg <;> decide)]
  split
  · next h =>
    rw [List.take_of_length_le (l := decText x) (by omega),
      show 31 - sg neg - (decText x).length = (30 - (sg neg + (decText x).length)) + 1 by omega, List.take_succ_cons,
      List.take_replicate]
    rw [Nat.min_comm]
  · next h =>
    rw [show 31 - sg neg - (decText x).length = 0 by omega, List.take_zero, List.append_nil]

/-- a value below 10^31 (negative: 10^30) is read with the accuracy of the ten decimals; exactly if it has no more -/
theorem read_fits (lib : CLib) (neg : Bool) {m : Nat} {e : Int} (h : IsDouble m e) (hm : mag m e < 10 ^ (31 - sg neg)) :
    ∃ q : ℚ, 0 ≤ q ∧ strtod lib ((fmtF lib (.fin neg m e)).take 31) = (ofMag lib neg q, []) ∧
      |q - mag m e| ≤ 1 / 2 / 10 ^ 10 ∧ ((∃ x : Nat, mag m e * 10 ^ 10 = x) → q = mag m e) ∧
      (mag m e * 10 ^ 10 < 1 / 2 → q = 0) := by
  have hn := lib.round_near (mag m e * 10 ^ 10) (by have := mag_nonneg m e; positivity)
  simp only [fmtF]
  generalize hN : lib.round (mag m e * 10 ^ 10) = n at hn
  by_cases hfit : sg neg + (decText (n / 10 ^ 10)).length ≤ 20
  · refine ⟨(n : ℚ) / 10 ^ 10, by positivity, ?_, ?_, ?_, ?_⟩
    · rw [List.take_of_length_le]
      · exact read_all lib neg n
      · simp only [List.length_append, sign_length, fracText_length, List.length_cons, List.length_nil]
        omega
    · rw [abs_le] at hn ⊢
      constructor
      · have : (n : ℚ) / 10 ^ 10 - mag m e = (n - mag m e * 10 ^ 10) / 10 ^ 10 := by
          rw [sub_div, mul_div_assoc, div_self (by norm_num), mul_one]
        rw [this, ← neg_div]
        exact (div_le_div_iff_of_pos_right (by norm_num)).2 hn.1
      · have : (n : ℚ) / 10 ^ 10 - mag m e = (n - mag m e * 10 ^ 10) / 10 ^ 10 := by
          rw [sub_div, mul_div_assoc, div_self (by norm_num), mul_one]
        rw [this]
        exact (div_le_div_iff_of_pos_right (by norm_num)).2 hn.2
    · rintro ⟨x, hx⟩
      rw [hx, round_int] at hN
      rw [← hN, ← hx, mul_div_assoc, div_self (by norm_num), mul_one]
    · intro hs
      rw [abs_le] at hn
      have : (n : ℚ) < ((1 : ℕ) : ℚ) := by push_cast; linarith [hn.2]
      have : n < 1 := by exact_mod_cast this
      have : n = 0 := by omega
      rw [this]
      simp
  · -- at least 20 digits: an integer
    have hsg : sg neg ≤ 1 := by cases neg <;> decide
    have hlen : ¬ (decText (n / 10 ^ 10)).length ≤ 19 := by omega
    have hbig : 10 ^ 19 ≤ n / 10 ^ 10 := by
      by_contra hc
      exact hlen ((decText_length_le (by decide)).2 (by omega))
    have hn29 : 10 ^ 29 ≤ n := by omega
    have hmag : (2 : ℚ) ^ 53 ≤ mag m e := by
      have h1 : (10 : ℚ) ^ 29 ≤ n := by exact_mod_cast hn29
      rw [abs_le] at hn
      have h2 : (10 : ℚ) ^ 29 - 1 / 2 ≤ mag m e * 10 ^ 10 := by linarith [hn.2]
      norm_num at h2 ⊢
      linarith
    obtain ⟨x, hx⟩ := mag_large h hmag
    have hN' : n = x * 10 ^ 10 := by
      rw [← hN, hx]
      have := round_int lib (x * 10 ^ 10)
      push_cast at this
      exact this
    have hq : n / 10 ^ 10 = x := by rw [hN']; exact Nat.mul_div_cancel _ (by decide)
    have hr : n % 10 ^ 10 = 0 := by rw [hN']; exact Nat.mul_mod_left _ _
    rw [hq, hr, hx]
    have hxl : x < 10 ^ (31 - sg neg) := by
      rw [hx] at hm
      exact_mod_cast hm
    have hlx : (decText x).length ≤ 31 - sg neg := (decText_length_le (by omega)).2 hxl
    refine ⟨x, by positivity, ?_, by simp; norm_num, fun _ => rfl, fun hs => ?_⟩
    swap
    · rw [hx] at hmag
      exfalso
      linarith
    rw [cut_int]
    split
    · exact read_zeros lib neg x _
    · rw [List.take_of_length_le hlx, strtod_int lib neg _ (dec_digit _) (decText_ne_nil _), toDbl_num, val_decText]
      simp

/-- a larger value loses its last digits -/
theorem read_cut (lib : CLib) (neg : Bool) {m : Nat} {e : Int} (h : IsDouble m e) (hm : 10 ^ (31 - sg neg) ≤ mag m e) :
    ∃ q : ℚ, 0 < q ∧ strtod lib ((fmtF lib (.fin neg m e)).take 31) = (ofMag lib neg q, []) ∧ 10 * q ≤ mag m e ∧
      q < 10 ^ 31 := by
  have hsg : sg neg ≤ 1 := by cases neg <;> decide
  have hmag : (2 : ℚ) ^ 53 ≤ mag m e := by
    have : (10 : ℚ) ^ 30 ≤ 10 ^ (31 - sg neg) := pow_le_pow_right₀ (by norm_num) (by omega)
    have h2 : (2 : ℚ) ^ 53 ≤ 10 ^ 30 := by norm_num
    linarith
  obtain ⟨x, hx⟩ := mag_large h hmag
  have hxl : 10 ^ (31 - sg neg) ≤ x := by
    rw [hx] at hm
    exact_mod_cast hm
  have hlx : ¬ (decText x).length ≤ 31 - sg neg := by
    rw [decText_length_le (by omega)]
    omega
  have hN : lib.round (mag m e * 10 ^ 10) = x * 10 ^ 10 := by
    rw [hx]
    have := round_int lib (x * 10 ^ 10)
    push_cast at this
    exact this
  simp only [fmtF]
  rw [hN, Nat.mul_div_cancel _ (by decide), Nat.mul_mod_left, cut_int, if_neg (by omega)]
  generalize ht : (decText x).length - (31 - sg neg) = t
  have htl : t < (decText x).length := by omega
  rw [show 31 - sg neg = (decText x).length - t by omega, decText_take t x htl]
  have hle : 10 * (x / 10 ^ t) ≤ x := by
    obtain ⟨u, rfl⟩ : ∃ u, t = u + 1 := ⟨t - 1, by omega⟩
    rw [Nat.pow_succ, ← Nat.div_div_eq_div_mul]
    have := Nat.div_le_self x (10 ^ u)
    omega
  have hlen : (decText (x / 10 ^ t)).length ≤ 31 := by
    rw [← decText_take t x htl, List.length_take]
    omega
  have hlt := (decText_length_le (k := 31) (by decide)).1 hlen
  have hpos : 0 < x / 10 ^ t := by
    have hne : (decText x).length ≤ (decText x).length := Nat.le_refl _
    rw [decText_length_le (by omega)] at hne
    have hge : 10 ^ ((decText x).length - 1) ≤ x := by
      by_cases h1 : (decText x).length = 1
      · rw [h1]
        simp
        have : 0 < 10 ^ (31 - sg neg) := by positivity
        omega
      · by_contra hc
        have := (decText_length_le (n := x) (k := (decText x).length - 1) (by omega)).2 (by omega)
        omega
    have : 10 ^ t ≤ x := Nat.le_trans (Nat.pow_le_pow_right (by decide) (by omega)) hge
    exact Nat.div_pos this (by positivity)
  refine ⟨((x / 10 ^ t : Nat) : ℚ), by exact_mod_cast hpos, ?_, ?_, by exact_mod_cast hlt⟩
  · rw [strtod_int lib neg _ (dec_digit _) (decText_ne_nil _), toDbl_num, val_decText]
    simp
  · rw [hx]
    exact_mod_cast hle

end Verif.StrDouble
