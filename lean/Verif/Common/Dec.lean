import Verif.Strings.Model
/-!
# Decimal text of a natural number
-/
namespace Verif
open Strings (decText)

theorem digitChar_byte : ∀ d < 10, (UInt8.ofNat (Nat.digitChar d).toNat).toNat = 48 + d := by decide

theorem decText_lt {n : Nat} (h : n < 10) : decText n = [UInt8.ofNat (Nat.digitChar n).toNat] := by
  unfold decText; rw [Nat.toDigits_of_lt_base h]; rfl

theorem decText_ge {n : Nat} (h : 10 ≤ n) :
    decText n = decText (n / 10) ++ [UInt8.ofNat (Nat.digitChar (n % 10)).toNat] := by
  unfold decText; rw [Nat.toDigits_of_base_le (by decide) h]; simp

theorem decText_length_le {n k : Nat} (hk : 0 < k) : (decText n).length ≤ k ↔ n < 10 ^ k := by
  unfold decText; rw [List.length_map]; exact Nat.length_toDigits_le_iff (by decide) hk

theorem decText_ne_nil (n : Nat) : decText n ≠ [] := by
  unfold decText; simp

/-- All characters of the decimal text are decimal digits. -/
theorem decText_digit : ∀ (n : Nat), ∀ c ∈ decText n, 48 ≤ c.toNat ∧ c.toNat ≤ 57 := by
  intro n
  induction n using Nat.strongRecOn with
  | ind n ih =>
    intro c hc
    by_cases h : n < 10
    · rw [decText_lt h, List.mem_singleton] at hc
      have := digitChar_byte n h
      rw [hc]; omega
    · rw [decText_ge (by omega), List.mem_append] at hc
      rcases hc with hc | hc
      · exact ih (n / 10) (by omega) c hc
      · rw [List.mem_singleton] at hc
        have := digitChar_byte (n % 10) (by omega)
        rw [hc]; omega

/-- Reading the decimal text digit by digit gives the number. -/
theorem decText_value : ∀ (n : Nat), (decText n).foldl (fun a c => a * 10 + (c.toNat - 48)) 0 = n := by
  intro n
  induction n using Nat.strongRecOn with
  | ind n ih =>
    by_cases h : n < 10
    · rw [decText_lt h]
      have := digitChar_byte n h
      simp only [List.foldl_cons, List.foldl_nil, this]; omega
    · rw [decText_ge (by omega), List.foldl_append, ih (n / 10) (by omega)]
      have := digitChar_byte (n % 10) (by omega)
      simp only [List.foldl_cons, List.foldl_nil, this]; omega

/-- A positive number's text does not start with '0'. -/
theorem decText_head : ∀ (n : Nat), 0 < n → ∃ c t, decText n = c :: t ∧ c ≠ 48 := by
  intro n
  induction n using Nat.strongRecOn with
  | ind n ih =>
    intro hn
    by_cases h : n < 10
    · refine ⟨_, [], decText_lt h, ?_⟩
      have := digitChar_byte n h
      intro e; rw [e] at this; simp at this; omega
    · obtain ⟨c, t, h1, h2⟩ := ih (n / 10) (by omega) (by omega)
      exact ⟨c, _, by rw [decText_ge (by omega), h1]; rfl, h2⟩

theorem decText_no0 (n : Nat) : (0 : Byte) ∉ decText n := by
  intro h
  have := decText_digit n 0 h
  simp at this

end Verif
