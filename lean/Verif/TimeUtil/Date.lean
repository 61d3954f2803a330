import Verif.TimeUtil.Calendar
/-! # C49: the date conversion -/
namespace Verif.TimeUtil
open Spec

theorem tdiv_nat {x : Int} {k n : Nat} (h : x = (n : Int)) : x.tdiv k = ((n / k : Nat) : Int) := by
  subst h
  rw [Int.tdiv_eq_ediv_of_nonneg (by omega)]
  rfl

theorem tdiv_neg_nat {x : Int} {k n : Nat} (h : x = -(n : Int)) : x.tdiv k = -((n / k : Nat) : Int) := by
  subst h
  rw [Int.neg_tdiv, Int.tdiv_eq_ediv_of_nonneg (by omega)]
  rfl

theorem tmod_nat {x : Int} {k n : Nat} (h : x = (n : Int)) : x.tmod k = ((n % k : Nat) : Int) := by
  subst h
  rw [Int.tmod_eq_emod_of_nonneg (by omega)]
  rfl

theorem e_c {a b c : Nat} (h : c + 146097 * b / 4 = a) : (-(b : Int) * 146097).tdiv 4 + a = c := by
  have := tdiv_neg_nat (x := -(b : Int) * 146097) (k := 4) (n := 146097 * b) (by omega)
  rw [show ((4 : Nat) : Int) = 4 from rfl] at this
  rw [this]; omega

theorem e_e {c d e : Nat} (h : e + 1461 * d / 4 = c) : (-(d : Int) * 1461).tdiv 4 + c = e := by
  have := tdiv_neg_nat (x := -(d : Int) * 1461) (k := 4) (n := 1461 * d) (by omega)
  rw [show ((4 : Nat) : Int) = 4 from rfl] at this
  rw [this]; omega

theorem e_md {m e md : Nat} (h : md + (153 * m + 2) / 5 = e + 1) : (-(153 * (m : Int) + 2)).tdiv 5 + e + 1 = md := by
  have := tdiv_neg_nat (x := -(153 * (m : Int) + 2)) (k := 5) (n := 153 * m + 2) (by omega)
  rw [show ((5 : Nat) : Int) = 5 from rfl] at this
  rw [this]; omega

theorem e_mo {m mo : Nat} (h : mo + 12 * (m / 10) = m + 2) : (-(m : Int)).tdiv 10 * 12 + m + 2 = mo := by
  have := tdiv_neg_nat (x := -(m : Int)) (k := 10) (n := m) rfl
  rw [show ((10 : Nat) : Int) = 10 from rfl] at this
  rw [this]; omega

theorem e_y {b d m y : Nat} (h : y + 4800 = 100 * b + d + m / 10) :
    (b : Int) * 100 + d - 6700 + (m : Int).tdiv 10 = (y : Int) - 1900 := by
  have := tdiv_nat (x := (m : Int)) (k := 10) (n := m) rfl
  rw [show ((10 : Nat) : Int) = 10 from rfl] at this
  rw [this]; omega

theorem x1 {a b : Nat} (hb : b = (4 * a + 3) / 146097) : a - 146097 * b / 4 + 146097 * b / 4 = a := by omega
theorem x2 {c d : Nat} (hb : d = (4 * c + 3) / 1461) : c - 1461 * d / 4 + 1461 * d / 4 = c := by omega
theorem x3 {a b n : Nat} (ha : a = n + 2472632) (hb : b = (4 * a + 3) / 146097) : 48 ≤ b := by omega
theorem x4 {b d m : Nat} (h : 48 ≤ b) : 100 * b + d + m / 10 - 4800 + 4800 = 100 * b + d + m / 10 := by omega
theorem x5 {m : Nat} (h : m ≤ 11) : m + 2 - 12 * (m / 10) + 12 * (m / 10) = m + 2 := by omega
theorem x6 {e m : Nat} (h : (153 * m + 2) / 5 ≤ e) : e + 1 - (153 * m + 2) / 5 + (153 * m + 2) / 5 = e + 1 := by omega
theorem x7 {a b : Nat} (hb : b = (4 * a + 3) / 146097) : 146097 * b ≤ 4 * a + 3 := by omega
theorem x8 {a n : Nat} (ha : a = n + 2472632) (hd : n < 100000000) : a < 110000000 := by omega
theorem x9 {c p a : Nat} (hc : c + p = a) : c ≤ a := by omega
theorem x11 {y b d m : Nat} (hy : y + 4800 = 100 * b + d + m / 10) : y ≤ 100 * b + d + m := by omega

theorem days2date_eq (days : Nat) (hd : days < 100000000) :
    ∃ y mo md : Nat, days2date (days : Int) = some ((md : Int), (mo : Int), (y : Int) - 1900) ∧ mo < 12 ∧ 1 ≤ md ∧
      md ≤ monthLen y mo ∧ daysBeforeYear y + daysBeforeMonth y mo + (md - 1) = 719528 + days := by
  obtain ⟨a, ha⟩ : ∃ a, a = days + 2472632 := ⟨_, rfl⟩
  obtain ⟨b, hb⟩ : ∃ b, b = (4 * a + 3) / 146097 := ⟨_, rfl⟩
  obtain ⟨c, hc⟩ : ∃ c, c + 146097 * b / 4 = a := ⟨a - 146097 * b / 4, x1 hb⟩
  obtain ⟨d, hdd⟩ : ∃ d, d = (4 * c + 3) / 1461 := ⟨_, rfl⟩
  obtain ⟨e, he⟩ : ∃ e, e + 1461 * d / 4 = c := ⟨c - 1461 * d / 4, x2 hdd⟩
  obtain ⟨m, hm⟩ : ∃ m, m = (5 * e + 2) / 153 := ⟨_, rfl⟩
  obtain ⟨s1, s2, s3, s4⟩ := year_split a b c d e hb hc hdd he
  obtain ⟨t1, t2, t3⟩ := month_split e m s2 hm
  have hb48 : 48 ≤ b := x3 ha hb
  obtain ⟨y, hy⟩ : ∃ y, y + 4800 = 100 * b + d + m / 10 := ⟨100 * b + d + m / 10 - 4800, x4 hb48⟩
  obtain ⟨mo, hmo⟩ : ∃ mo, mo + 12 * (m / 10) = m + 2 := ⟨m + 2 - 12 * (m / 10), x5 t1⟩
  obtain ⟨md, hmd⟩ : ∃ md, md + (153 * m + 2) / 5 = e + 1 := ⟨e + 1 - (153 * m + 2) / 5, x6 t2⟩
  refine ⟨y, mo, md, ?_, civil_of_days days a b c d e m ha hb hc hdd he hm y mo md hy hmo hmd⟩
  have ea : (days : Int) + 2472632 = a := by rw [ha]; rfl
  have hbb : 146097 * b ≤ 4 * a + 3 := x7 hb
  have ec := e_c hc
  have ee := e_e he
  have eb : ((a : Int) * 4 + 3).tdiv 146097 = b := by
    rw [hb]; exact tdiv_nat (by rw [Int.mul_comm]; rfl)
  have ed : ((c : Int) * 4 + 3).tdiv 1461 = d := by
    rw [hdd]; exact tdiv_nat (by rw [Int.mul_comm]; rfl)
  have em : (5 * (e : Int) + 2).tdiv 153 = m := by
    rw [hm]; exact tdiv_nat rfl
  have emd := e_md hmd
  have emo := e_mo hmo
  have ey := e_y hy
  unfold days2date
  simp only [ea, eb, ec, ed, ee, em, emd, emo, ey]
  rw [if_pos]
  have ha' : a < 110000000 := x8 ha hd
  have hc' : c ≤ a := x9 hc
  have hmd' : md ≤ e + 1 := x9 hmd
  have hmo' : mo ≤ m + 2 := x9 hmo
  have hy' : y ≤ 100 * b + d + m := x11 hy
  clear ea eb ec ed ee em emd emo ey hb hdd hc he hm s4 s3 ha hmd hmo hy t2 t3
  simp only [List.all_cons, List.all_nil, fits, Bool.and_eq_true, decide_eq_true_eq, Bool.and_true]
  refine ⟨?_, ?_, ?_, ?_, ?_, ?_, ?_, ?_, ?_, ?_, ?_, ?_, ?_, ?_⟩ <;> constructor <;> omega

theorem sec_split (s : Nat) : 3600 * (s / 60 / 60) + 60 * (s / 60 % 60) + s % 60 = s := by omega

theorem hour_split (H : Nat) : 24 * (H / 24) + H % 24 = H := by omega

theorem time_eq {E q r1 r2 s d r3 H : Nat} {zone : Int} (h1 : 3600 * q + 60 * r1 + r2 = s) (h2 : 24 * d + r3 = H)
    (h3 : (q : Int) + zone = H) :
    (((E + d) * 86400 + r3 * 3600 + r1 * 60 + r2 : Nat) : Int) = (E * 86400 : Nat) + (s : Int) + 3600 * zone := by
  omega

theorem day_unique {d h m s d' h' m' s' : Nat} (h1 : h < 24) (h2 : m < 60) (h3 : s < 60) (h1' : h' < 24) (h2' : m' < 60)
    (h3' : s' < 60) (e : d * 86400 + h * 3600 + m * 60 + s = d' * 86400 + h' * 3600 + m' * 60 + s') :
    d = d' ∧ h = h' ∧ m = m' ∧ s = s' := by
  have a : (d * 1440 + h * 60 + m) * 60 + s = (d' * 1440 + h' * 60 + m') * 60 + s' := by omega
  have b : ∀ {x y p q : Nat}, p < 60 → q < 60 → x * 60 + p = y * 60 + q → x = y ∧ p = q := by
    intro x y p q _ _ _; omega
  obtain ⟨a1, a2⟩ := b h3 h3' a
  have a' : (d * 24 + h) * 60 + m = (d' * 24 + h') * 60 + m' := by omega
  obtain ⟨a3, a4⟩ := b h2 h2' a'
  exact ⟨by omega, by omega, a4, a2⟩

theorem fits_nat {n : Nat} (h : n < 2147000000) : fits n = true := by
  unfold fits; simp only [Bool.and_eq_true, decide_eq_true_eq]; omega

theorem second2date_eq {sec zone : Int} (h0 : 0 ≤ sec) (h1 : sec < 2147483648) (hz : zone ≤ 2146000000)
    (hl : 0 ≤ sec + 3600 * zone) :
    ∃ c : Civil, IsLocal c sec zone ∧
      second2date sec zone = some (Tm.mk c.sec c.min c.hour c.day c.month ((c.year : Int) - 1900)) := by
  obtain ⟨s, rfl⟩ : ∃ s : Nat, sec = s := ⟨sec.toNat, by omega⟩
  obtain ⟨H, hH⟩ : ∃ H : Nat, ((s / 60 / 60 : Nat) : Int) + zone = H := ⟨(((s / 60 / 60 : Nat) : Int) + zone).toNat, by
    have := sec_split s; omega⟩
  have hHlt : H < 2147000000 := by
    have := sec_split s; omega
  have hf := fits_nat hHlt
  obtain ⟨y, mo, md, e, v1, v2, v3, v4⟩ := days2date_eq (H / 24) (by omega)
  have et : toInt (s : Int) = s := by unfold toInt; omega
  have em : (s : Int).tdiv 60 = ((s / 60 : Nat) : Int) := tdiv_nat rfl
  have eh : ((s / 60 : Nat) : Int).tdiv 60 = ((s / 60 / 60 : Nat) : Int) := tdiv_nat rfl
  have ed : (H : Int).tdiv 24 = ((H / 24 : Nat) : Int) := tdiv_nat rfl
  refine ⟨⟨y, mo, md, H % 24, s / 60 % 60, s % 60⟩, ⟨⟨v1, v2, v3, ?_⟩, ?_⟩, ?_⟩
  · exact ⟨Nat.mod_lt _ (by decide), Nat.mod_lt _ (by decide), Nat.mod_lt _ (by decide)⟩
  · rw [epoch_seconds]
    unfold Civil.seconds Civil.days
    simp only []
    rw [v4]
    generalize 719528 = E
    exact time_eq (sec_split s) (hour_split H) hH
  · have t1 : (s : Int).tmod 60 = ((s % 60 : Nat) : Int) := tmod_nat rfl
    have t2 : ((s / 60 : Nat) : Int).tmod 60 = ((s / 60 % 60 : Nat) : Int) := tmod_nat rfl
    have t3 : (H : Int).tmod 24 = ((H % 24 : Nat) : Int) := tmod_nat rfl
    unfold second2date
    rw [et, em]
    simp only []
    rw [eh, hH, if_pos hf, ed, e, t1, t2, t3]
    rfl

/-- Civil times are determined by their seconds. -/
theorem isLocal_unique {c c' : Civil} {sec zone : Int} (h : IsLocal c sec zone) (h' : IsLocal c' sec zone) : c = c' := by
  obtain ⟨⟨a1, a2, a3, a4, a5, a6⟩, ha⟩ := h
  obtain ⟨⟨b1, b2, b3, b4, b5, b6⟩, hb⟩ := h'
  have he : c.seconds = c'.seconds := Int.ofNat.inj (ha.trans hb.symm)
  obtain ⟨hd, hh, hm, hs⟩ := day_unique a4 a5 a6 b4 b5 b6 he
  obtain ⟨e1, e2, e3⟩ := civil_unique a1 a2 a3 b1 b2 b3 hd
  cases c; cases c'
  simp only [] at *
  simp [e1, e2, e3, hh, hm, hs]

end Verif.TimeUtil
