import Verif.TimeUtil.Model
import Verif.TimeUtil.Spec
/-! # C49: the calendar -/
namespace Verif.TimeUtil
open Spec

theorem daysBeforeYear_eq (y : Nat) : daysBeforeYear y + (y + 99) / 100 = 365 * y + (y + 3) / 4 + (y + 399) / 400 := by
  induction y with
  | zero => rfl
  | succ y ih =>
    unfold daysBeforeYear yearLen
    by_cases h : leap y = true
    · rw [if_pos h]
      simp only [leap, Bool.and_eq_true, Bool.or_eq_true, beq_iff_eq, bne_iff_ne] at h
      omega
    · rw [if_neg h]
      simp only [leap, Bool.and_eq_true, Bool.or_eq_true, beq_iff_eq, bne_iff_ne] at h
      omega

theorem epoch_days : epoch.days = 719528 := by
  have h := daysBeforeYear_eq 1970
  unfold epoch Civil.days
  simp only [daysBeforeMonth]
  omega

theorem epoch_seconds : epoch.seconds = 719528 * 86400 := by
  have h := epoch_days
  unfold Civil.seconds
  rw [h]
  rfl

/-- the month table, March first: month number, days before it, length -/
theorem month_facts (y : Nat) : (∀ m < 10, daysBeforeMonth y (m + 2) = (if leap y then 60 else 59) + (153 * m + 2) / 5 ∧
      monthLen y (m + 2) = (153 * (m + 1) + 2) / 5 - (153 * m + 2) / 5) ∧
    daysBeforeMonth y 0 = 0 ∧ monthLen y 0 = 31 ∧ daysBeforeMonth y 1 = 31 ∧ monthLen y 1 = (if leap y then 29 else 28) := by
  cases h : leap y
  · refine ⟨?_, rfl, rfl, rfl, by simp [monthLen, h]⟩
    have h2 : ∀ m < 12, monthLen y m = [31, 28, 31, 30, 31, 30, 31, 31, 30, 31, 30, 31].getD m 0 := by
      intro m _; simp only [monthLen, h, Bool.false_eq_true, if_false]
    intro m hm
    have h10 : m = 0 ∨ m = 1 ∨ m = 2 ∨ m = 3 ∨ m = 4 ∨ m = 5 ∨ m = 6 ∨ m = 7 ∨ m = 8 ∨ m = 9 := by omega
    rcases h10 with rfl | rfl | rfl | rfl | rfl | rfl | rfl | rfl | rfl | rfl <;>
      simp [daysBeforeMonth, h2]
  · refine ⟨?_, rfl, rfl, rfl, by simp [monthLen, h]⟩
    have h2 : ∀ m < 12, monthLen y m = [31, 29, 31, 30, 31, 30, 31, 31, 30, 31, 30, 31].getD m 0 := by
      intro m _; simp only [monthLen, h, if_true]
    intro m hm
    have h10 : m = 0 ∨ m = 1 ∨ m = 2 ∨ m = 3 ∨ m = 4 ∨ m = 5 ∨ m = 6 ∨ m = 7 ∨ m = 8 ∨ m = 9 := by omega
    rcases h10 with rfl | rfl | rfl | rfl | rfl | rfl | rfl | rfl | rfl | rfl <;>
      simp [daysBeforeMonth, h2]

/-- the year (from March) and the day in it -/
theorem year_split (a b c d e : Nat) (hb : b = (4 * a + 3) / 146097) (hc : c + 146097 * b / 4 = a)
    (hd : d = (4 * c + 3) / 1461) (he : e + 1461 * d / 4 = c) :
    d ≤ 99 ∧ e ≤ 365 ∧ a + b = 36525 * b + b / 4 + 365 * d + d / 4 + e ∧
      (e = 365 → d % 4 = 3 ∧ (d ≠ 99 ∨ b % 4 = 3)) := by
  have hb4 : 146097 * b / 4 = 36524 * b + b / 4 := by omega
  have hd4 : 1461 * d / 4 = 365 * d + d / 4 := by omega
  have hb1 : 146097 * b ≤ 4 * a + 3 := by omega
  have hb2 : 4 * a + 3 < 146097 * b + 146097 := by omega
  have hd1 : 1461 * d ≤ 4 * c + 3 := by omega
  have hd2 : 4 * c + 3 < 1461 * d + 1461 := by omega
  clear hb hd
  rw [hb4] at hc
  rw [hd4] at he
  clear hb4 hd4
  have h1 : c ≤ 36524 := by omega
  have h2 : d ≤ 99 := by omega
  have h3 : e ≤ 365 := by omega
  refine ⟨h2, h3, by omega, ?_⟩
  intro h
  refine ⟨by omega, ?_⟩
  by_cases h99 : d = 99
  · right; subst h99; omega
  · exact .inl h99

/-- the month (from March) and the day in it -/
theorem month_split (e m : Nat) (he : e ≤ 365) (hm : m = (5 * e + 2) / 153) :
    m ≤ 11 ∧ (153 * m + 2) / 5 ≤ e ∧ e < (153 * (m + 1) + 2) / 5 := by
  refine ⟨by omega, ?_, ?_⟩ <;> omega

theorem q1 (y b d : Nat) (h : y + 4800 = 100 * b + d) : (y + 99) / 100 + 48 = b + (d + 99) / 100 := by omega
theorem q2 (y b d : Nat) (h : y + 4800 = 100 * b + d) : (y + 399) / 400 + 12 = (b + 3 + (d + 99) / 100) / 4 := by omega
theorem q3 (y b d : Nat) (h : y + 4800 = 100 * b + d) : (y + 3) / 4 + 1200 = 25 * b + (d + 3) / 4 := by omega
theorem q4 (y b d : Nat) (hd : d ≤ 99) (h : y + 4800 = 100 * b + d) :
    y % 4 = d % 4 ∧ y % 100 = d ∧ y % 400 = 100 * (b % 4) + d := by omega
theorem r1 (y b d : Nat) (hd : d ≤ 99) (h : y + 4799 = 100 * b + d) : (y + 99) / 100 + 47 = b := by omega
theorem r2 (y b d : Nat) (hd : d ≤ 99) (h : y + 4799 = 100 * b + d) : (y + 399) / 400 + 12 = (b + 4) / 4 := by omega
theorem r3 (y b d : Nat) (h : y + 4799 = 100 * b + d) : (y + 3) / 4 + 1200 = 25 * b + (d + 4) / 4 := by omega
theorem r4 (y b d : Nat) (hd : d ≤ 99) (h : y + 4799 = 100 * b + d) :
    y % 4 = (d + 1) % 4 ∧ (y % 100 = 0 ↔ d = 99) ∧ (d = 99 → (y % 400 = 0 ↔ b % 4 = 3)) := by
  refine ⟨by omega, by omega, ?_⟩
  intro h9; subst h9; omega

theorem leap_iff (y : Nat) : leap y = true ↔ y % 4 = 0 ∧ (y % 100 ≠ 0 ∨ y % 400 = 0) := by
  simp [leap]

theorem leap_q (y b d : Nat) (hd : d ≤ 99) (h : y + 4800 = 100 * b + d) :
    leap y = true ↔ d % 4 = 0 ∧ (d ≠ 0 ∨ b % 4 = 0) := by
  obtain ⟨e1, e2, e3⟩ := q4 y b d hd h
  rw [leap_iff, e1, e2, e3]
  by_cases h0 : d = 0
  · subst h0; simp; omega
  · simp [h0]

theorem leap_r (y b d : Nat) (hd : d ≤ 99) (h : y + 4799 = 100 * b + d) :
    leap y = true ↔ d % 4 = 3 ∧ (d ≠ 99 ∨ b % 4 = 3) := by
  obtain ⟨e1, e2, e3⟩ := r4 y b d hd h
  rw [leap_iff, e1, ne_eq, e2]
  by_cases h9 : d = 99
  · rw [e3 h9]; subst h9; simp
  · simp only [h9, not_false_eq_true, true_or, and_true, ne_eq]; omega

/-- days before 1 March of year `y`, in terms of century `b` and year `d` in it -/
theorem march (y b d : Nat) (hd : d ≤ 99) (h : y + 4800 = 100 * b + d) :
    daysBeforeYear y + (if leap y then 60 else 59) + 365 * 4800 + 1164 + b =
      36525 * b + b / 4 + 365 * d + d / 4 + 60 := by
  have hyear := daysBeforeYear_eq y
  have a1 := q1 y b d h
  have a2 := q2 y b d h
  have a3 := q3 y b d h
  have hl := leap_q y b d hd h
  generalize daysBeforeYear y = D at *
  generalize (y + 99) / 100 = A at *
  generalize (y + 399) / 400 = B at *
  generalize (y + 3) / 4 = C at *
  by_cases h0 : d = 0
  · subst h0
    by_cases hh : leap y = true
    · rw [if_pos hh]; rw [hl] at hh; omega
    · rw [if_neg hh]; rw [hl] at hh; omega
  · have h1 : (d + 99) / 100 = 1 := by omega
    rw [h1] at a1 a2
    have h2 : (b + 3 + 1) / 4 = b / 4 + 1 := by omega
    rw [h2] at a2
    by_cases hh : leap y = true
    · rw [if_pos hh]; rw [hl] at hh
      have h3 : (d + 3) / 4 = d / 4 := by omega
      rw [h3] at a3
      clear hl hh h1 h2 h3
      generalize b / 4 = b4 at *
      generalize d / 4 = d4 at *
      omega
    · rw [if_neg hh]; rw [hl] at hh
      have h3 : (d + 3) / 4 = d / 4 + 1 := by omega
      rw [h3] at a3
      clear hl hh h1 h2 h3
      generalize b / 4 = b4 at *
      generalize d / 4 = d4 at *
      omega

/-- days before 1 January of the year after March year `(b, d)` -/
theorem january (y b d : Nat) (hd : d ≤ 99) (h : y + 4799 = 100 * b + d) :
    daysBeforeYear y + 365 * 4800 + 1164 + b = 36525 * b + b / 4 + 365 * d + d / 4 + 366 := by
  have hyear := daysBeforeYear_eq y
  have a1 := r1 y b d hd h
  have a2 := r2 y b d hd h
  have a3 := r3 y b d h
  generalize daysBeforeYear y = D at *
  generalize (y + 99) / 100 = A at *
  generalize (y + 399) / 400 = B at *
  generalize (y + 3) / 4 = C at *
  have h2 : (b + 4) / 4 = b / 4 + 1 := by omega
  have h3 : (d + 4) / 4 = d / 4 + 1 := by omega
  rw [h2] at a2
  rw [h3] at a3
  clear h2 h3
  generalize b / 4 = b4 at *
  generalize d / 4 = d4 at *
  omega

/-- The date found by the algorithm, in natural numbers. -/
theorem civil_of_days (days a b c d e m : Nat) (ha : a = days + 2472632) (hb : b = (4 * a + 3) / 146097)
    (hc : c + 146097 * b / 4 = a) (hd : d = (4 * c + 3) / 1461) (he : e + 1461 * d / 4 = c)
    (hm : m = (5 * e + 2) / 153) (y mo md : Nat) (hy : y + 4800 = 100 * b + d + m / 10) (hmo : mo + 12 * (m / 10) = m + 2)
    (hmd : md + (153 * m + 2) / 5 = e + 1) :
    mo < 12 ∧ 1 ≤ md ∧ md ≤ monthLen y mo ∧ daysBeforeYear y + daysBeforeMonth y mo + (md - 1) = 719528 + days := by
  obtain ⟨h1, h2, h3, h4⟩ := year_split a b c d e hb hc hd he
  obtain ⟨h5, h6, h7⟩ := month_split e m h2 hm
  obtain ⟨f1, f2, f3, f4, f5⟩ := month_facts y
  clear hb hc hd he hm
  by_cases h10 : m < 10
  · have hmz : m / 10 = 0 := by omega
    rw [hmz] at hy hmo
    obtain ⟨g1, g2⟩ := f1 m h10
    have : mo = m + 2 := by omega
    subst this
    rw [g1, g2]
    have hM := march y b d h1 (by omega)
    clear f1 g1 g2 f2 f3 f4 f5 h4 hy hmo hmz
    generalize (153 * m + 2) / 5 = P at *
    generalize (153 * (m + 1) + 2) / 5 = Q at *
    generalize (if leap y = true then 60 else 59) = L at *
    refine ⟨by omega, by omega, by omega, by omega⟩
  · have hmz : m / 10 = 1 := by omega
    rw [hmz] at hy hmo
    have hJ := january y b d h1 (by omega)
    have hl := leap_r y b d h1 (by omega)
    clear f1
    have h11 : m = 10 ∨ m = 11 := by omega
    rcases h11 with rfl | rfl
    · have : mo = 0 := by omega
      subst this
      rw [f2, f3]
      clear f2 f3 f4 f5 hl hy h4
      refine ⟨by omega, by omega, by omega, by omega⟩
    · have : mo = 1 := by omega
      subst this
      rw [f4, f5]
      clear f2 f3 f4 f5
      refine ⟨by omega, by omega, ?_, by omega⟩
      by_cases hll : leap y = true
      · rw [if_pos hll]; omega
      · rw [if_neg hll]
        rw [hl] at hll
        have : e ≠ 365 := fun h => hll (h4 h)
        omega

theorem monthLen_le (y m : Nat) : monthLen y m ≤ 31 := by
  by_cases hm : m < 12
  · unfold monthLen
    have h10 : m = 0 ∨ m = 1 ∨ m = 2 ∨ m = 3 ∨ m = 4 ∨ m = 5 ∨ m = 6 ∨ m = 7 ∨ m = 8 ∨ m = 9 ∨ m = 10 ∨ m = 11 := by omega
    rcases h10 with rfl | rfl | rfl | rfl | rfl | rfl | rfl | rfl | rfl | rfl | rfl | rfl <;> simp
    split <;> omega
  · unfold monthLen
    rw [List.getD_eq_getElem?_getD, List.getElem?_eq_none (by simp; omega)]; simp

theorem daysBeforeYear_mono {y z : Nat} (h : y < z) : daysBeforeYear y + yearLen y ≤ daysBeforeYear z := by
  induction z with
  | zero => omega
  | succ z ih =>
    show _ ≤ daysBeforeYear z + yearLen z
    by_cases hy : y = z
    · subst hy; omega
    · have := ih (by omega); omega

theorem daysBeforeMonth_mono (y : Nat) {m n : Nat} (h : m < n) : daysBeforeMonth y m + monthLen y m ≤ daysBeforeMonth y n := by
  induction n with
  | zero => omega
  | succ n ih =>
    show _ ≤ daysBeforeMonth y n + monthLen y n
    by_cases hy : m = n
    · subst hy; omega
    · have := ih (by omega); omega

theorem year_of_months (y : Nat) : daysBeforeMonth y 12 = yearLen y := by
  have h := (month_facts y).1 9 (by omega)
  show daysBeforeMonth y 11 + monthLen y 11 = _
  rw [h.1, h.2]
  unfold yearLen
  split <;> rfl

/-- Two valid dates with the same day number are equal. -/
theorem civil_unique {y m d y' m' d' : Nat} (hm : m < 12) (hd : 1 ≤ d) (hl : d ≤ monthLen y m) (hm' : m' < 12) (hd' : 1 ≤ d')
    (hl' : d' ≤ monthLen y' m')
    (h : daysBeforeYear y + daysBeforeMonth y m + (d - 1) = daysBeforeYear y' + daysBeforeMonth y' m' + (d' - 1)) :
    y = y' ∧ m = m' ∧ d = d' := by
  have a1 := daysBeforeMonth_mono y hm
  have a2 := daysBeforeMonth_mono y' hm'
  rw [year_of_months] at a1 a2
  have hy : y = y' := by
    rcases Nat.lt_trichotomy y y' with hh | hh | hh
    · have := daysBeforeYear_mono hh; omega
    · exact hh
    · have := daysBeforeYear_mono hh; omega
  subst hy
  have hmm : m = m' := by
    rcases Nat.lt_trichotomy m m' with hh | hh | hh
    · have := daysBeforeMonth_mono y hh; omega
    · exact hh
    · have := daysBeforeMonth_mono y hh; omega
  subst hmm
  exact ⟨rfl, rfl, by omega⟩

end Verif.TimeUtil
