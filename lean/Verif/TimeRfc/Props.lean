import Verif.TimeRfc.Model
import Verif.TimeRfc.Spec
import Verif.TimeUtil.Date

/-! # C67: RFC 1123 and RFC 2822 time texts -/
namespace Verif.TimeRfc
open Strings (decText)
open Verif.TimeUtil.Spec Spec

/-- The contract of `gmtime_r`: UTC in the Gregorian calendar. -/
def Gmtime (g : Int → Option Tm) : Prop :=
  ∀ t c, IsLocal c t 0 →
    g t = some { sec := c.sec, min := c.min, hour := c.hour, mday := c.day, mon := c.month, year := c.year, wday := weekday c }

/-! ## Digits -/

theorem digit_of_lt {n : Nat} (h : n < 10) : decText n = [digit n] := by
  rw [decText_lt h]
  have : ∀ n < 10, [UInt8.ofNat (Nat.digitChar n).toNat] = [digit n] := by decide
  exact this n h

theorem digit_mod (n : Nat) : UInt8.ofNat (Nat.digitChar (n % 10)).toNat = digit n := by
  have : ∀ n < 10, UInt8.ofNat (Nat.digitChar n).toNat = UInt8.ofNat (48 + n) := by decide
  exact this (n % 10) (Nat.mod_lt _ (by omega))

theorem dec_two {n : Nat} (h1 : 10 ≤ n) (h2 : n < 100) : decText n = two n := by
  rw [decText_ge h1, digit_of_lt (by omega), digit_mod]; rfl

theorem pad2_eq {n : Nat} (h : n < 100) : pad2 n = two n := by
  unfold pad2
  split
  · rename_i h1
    rw [digit_of_lt h1]
    unfold two
    rw [show n / 10 = 0 by omega]; rfl
  · exact dec_two (by omega) h

theorem dec_four {n : Nat} (h1 : 1000 ≤ n) (h2 : n < 10000) : decText n = four n := by
  rw [decText_ge (by omega), decText_ge (n := n / 10) (by omega), decText_ge (n := n / 10 / 10) (by omega),
    digit_of_lt (by omega), digit_mod, digit_mod, digit_mod]
  unfold four
  simp only [Nat.div_div_eq_div_mul]; rfl

/-! ## The texts -/

theorem names_day : ∀ n < 7, dayNames[n]? = some (dayName n) := by decide
theorem names_month : ∀ n < 12, monthNames[n]? = some (monthName n) := by decide
theorem day3 : ∀ n < 7, ∃ a b c, lit (dayName n) = [a, b, c] := by
  intro n h
  match n, h with
  | 0, _ => exact ⟨_, _, _, rfl⟩
  | 1, _ => exact ⟨_, _, _, rfl⟩
  | 2, _ => exact ⟨_, _, _, rfl⟩
  | 3, _ => exact ⟨_, _, _, rfl⟩
  | 4, _ => exact ⟨_, _, _, rfl⟩
  | 5, _ => exact ⟨_, _, _, rfl⟩
  | 6, _ => exact ⟨_, _, _, rfl⟩
theorem month3 : ∀ n < 12, ∃ a b c, lit (monthName n) = [a, b, c] := by
  intro n h
  match n, h with
  | 0, _ => exact ⟨_, _, _, rfl⟩
  | 1, _ => exact ⟨_, _, _, rfl⟩
  | 2, _ => exact ⟨_, _, _, rfl⟩
  | 3, _ => exact ⟨_, _, _, rfl⟩
  | 4, _ => exact ⟨_, _, _, rfl⟩
  | 5, _ => exact ⟨_, _, _, rfl⟩
  | 6, _ => exact ⟨_, _, _, rfl⟩
  | 7, _ => exact ⟨_, _, _, rfl⟩
  | 8, _ => exact ⟨_, _, _, rfl⟩
  | 9, _ => exact ⟨_, _, _, rfl⟩
  | 10, _ => exact ⟨_, _, _, rfl⟩
  | 11, _ => exact ⟨_, _, _, rfl⟩

theorem lit_asc (s : String) : lit s = asc s := rfl

theorem valid_lt {c : Civil} (h : c.Valid) : c.day < 100 ∧ c.hour < 100 ∧ c.min < 100 ∧ c.sec < 100 := by
  obtain ⟨_, _, h3, h4, h5, h6⟩ := h
  have := TimeUtil.monthLen_le c.year c.month
  omega

/-- `strftime`'s text for the format of time_rfc1123.c. -/
theorem expand1123 {c : Civil} (h : c.Valid) (w : Nat) :
    expand { sec := c.sec, min := c.min, hour := c.hour, mday := c.day, mon := c.month, year := c.year, wday := w }
      "---, %d --- %Y %H:%M:%S GMT".toList =
    some (asc "---" ++ asc ", " ++ two c.day ++ asc " " ++ asc "---" ++ asc " " ++ decText c.year ++
      asc " " ++ two c.hour ++ asc ":" ++ two c.min ++ asc ":" ++ two c.sec ++ asc " " ++ asc "GMT") := by
  obtain ⟨h1, h2, h3, h4⟩ := valid_lt h
  simp [expand, conv, pad2_eq h1, pad2_eq h2, pad2_eq h3, pad2_eq h4, asc]
  intro; omega

theorem expand2822 {c : Civil} (h : c.Valid) :
    expand { sec := c.sec, min := c.min, hour := c.hour, mday := c.day, mon := c.month, year := c.year, wday := weekday c }
      "%a, %d %b %Y %T %z".toList =
    some (asc (dayName (weekday c)) ++ asc ", " ++ two c.day ++ asc " " ++ asc (monthName c.month) ++ asc " " ++ decText c.year ++
      asc " " ++ two c.hour ++ asc ":" ++ two c.min ++ asc ":" ++ two c.sec ++ asc " " ++ asc "+0000") := by
  obtain ⟨h1, h2, h3, h4⟩ := valid_lt h
  have e1 := names_day (weekday c) (Nat.mod_lt _ (by omega))
  have e2 := names_month c.month h.1
  unfold dayNames at e1
  unfold monthNames at e2
  simp [expand, conv, pad2_eq h1, pad2_eq h2, pad2_eq h3, pad2_eq h4, e1, e2, lit_asc, asc]
  intro; omega

theorem expand2822utc {c : Civil} (h : c.Valid) :
    expand { sec := c.sec, min := c.min, hour := c.hour, mday := c.day, mon := c.month, year := c.year, wday := weekday c }
      "%a, %d %b %Y %T UTC".toList =
    some (asc (dayName (weekday c)) ++ asc ", " ++ two c.day ++ asc " " ++ asc (monthName c.month) ++ asc " " ++ decText c.year ++
      asc " " ++ two c.hour ++ asc ":" ++ two c.min ++ asc ":" ++ two c.sec ++ asc " " ++ asc "UTC") := by
  obtain ⟨h1, h2, h3, h4⟩ := valid_lt h
  have e1 := names_day (weekday c) (Nat.mod_lt _ (by omega))
  have e2 := names_month c.month h.1
  unfold dayNames at e1
  unfold monthNames at e2
  simp [expand, conv, pad2_eq h1, pad2_eq h2, pad2_eq h3, pad2_eq h4, e1, e2, lit_asc, asc]
  intro; omega

/-! ## The functions -/

/-- The text has the length of its pattern. -/
theorem text_length {c : Civil} (h : c.Valid) (zone : String) : (text c zone).length = 26 + (asc zone).length := by
  obtain ⟨a, b, d, e1⟩ := day3 (weekday c) (Nat.mod_lt _ (by omega))
  obtain ⟨a', b', d', e2⟩ := month3 c.month h.1
  unfold text
  rw [← lit_asc (dayName _), e1, ← lit_asc (monthName _), e2]
  simp [two, four, asc]
  omega

/-- **C67.** `time_rfc1123` on a valid buffer writes the RFC 1123 text of the instant in UTC, for the years 1000 to
9999, and nothing after its terminator. -/
theorem rfc1123_text {g : Int → Option Tm} (hg : Gmtime g) {t : Int} {c : Civil} (hc : IsLocal c t 0)
    (h1 : 1000 ≤ c.year) (h2 : c.year ≤ 9999) (junk : List Byte) (m : Mem) {size : Nat} (hs : 30 ≤ size)
    (hm : size ≤ m.length) :
    rfc1123 g junk t (some m) size = some (0, some (text c "GMT" ++ 0 :: m.drop 30)) := by
  have hw : weekday c < 7 := Nat.mod_lt _ (by omega)
  obtain ⟨a, b, d, e1⟩ := day3 (weekday c) hw
  obtain ⟨a', b', d', e2⟩ := month3 c.month hc.1.1
  unfold rfc1123
  simp only []
  rw [if_neg (by omega), hg t c hc]
  simp only [Option.bind_eq_bind, Option.bind_some, strftime, expand1123 hc.1]
  rw [dec_four h1 (by omega)]
  rw [if_pos (by simp [asc, two, four]), Mem.store_eq_some (by simp [asc, two, four]; omega), Option.bind_some,
    names_day _ hw, Option.bind_some, e1, Mem.store_eq_some (by simp [asc, two, four]), Option.bind_some,
    names_month _ hc.1.1, Option.bind_some, e2, Mem.store_eq_some (by simp [asc, two, four]), Option.bind_some]
  unfold text
  rw [← lit_asc (dayName _), e1, ← lit_asc (monthName _), e2]
  simp [asc, two, four]

theorem timeStrf_fits {g : Int → Option Tm} {t : Int} {tm : Tm} (hg : g t = some tm) {s : List Byte} {fmt : String}
    (he : expand tm fmt.toList = some s) (junk : List Byte) {m : Mem} {size : Nat} (h1 : s.length < size) (h2 : size ≤ m.length) :
    timeStrf g junk t m size fmt = some (s ++ 0 :: m.drop (s.length + 1)) := by
  unfold timeStrf
  rw [Mem.store_eq_some (by simp; omega)]
  simp only [Option.bind_eq_bind, Option.bind_some, hg, strftime, he]
  rw [if_pos h1, Mem.store_eq_some (by simp; omega)]
  simp

theorem timeStrf_junk {g : Int → Option Tm} {t : Int} {tm : Tm} (hg : g t = some tm) {s : List Byte} {fmt : String}
    (he : expand tm fmt.toList = some s) {junk : List Byte} {m : Mem} {size : Nat} (h1 : size ≤ s.length) (h0 : 0 < size)
    (h2 : size ≤ m.length) (hj : junk.length = size) :
    timeStrf g junk t m size fmt = some (junk ++ m.drop size) := by
  unfold timeStrf
  rw [Mem.store_eq_some (by simp; omega)]
  simp only [Option.bind_eq_bind, Option.bind_some, hg, strftime, he]
  rw [if_neg (by omega), ← hj, List.take_length, Mem.store_eq_some (by simp; omega)]
  obtain ⟨k, hk⟩ : ∃ k, junk.length = k + 1 := ⟨junk.length - 1, by omega⟩
  simp [hk]

/-- **C67.** Same for `time_rfc2822`: the zone is written `+0000`, whatever the local zone. -/
theorem rfc2822_text {g : Int → Option Tm} (hg : Gmtime g) {t : Int} {c : Civil} (hc : IsLocal c t 0)
    (h1 : 1000 ≤ c.year) (h2 : c.year ≤ 9999) (junk : List Byte) (m : Mem) {size : Nat} (hs : 32 ≤ size)
    (hm : size ≤ m.length) :
    rfc2822 g junk t (some m) size = some (0, some (text c "+0000" ++ 0 :: m.drop 32)) := by
  have hl : (text c "+0000").length = 31 := text_length hc.1 "+0000"
  have he := expand2822 hc.1
  rw [dec_four h1 (by omega)] at he
  have he : expand _ _ = some (text c "+0000") := he
  unfold rfc2822
  simp only []
  rw [if_neg (by omega), timeStrf_fits (hg t c hc) he junk (by omega) hm, hl]
  rfl

/-- **C67.** Same for `time_rfc2822_utc`. -/
theorem rfc2822utc_text {g : Int → Option Tm} (hg : Gmtime g) {t : Int} {c : Civil} (hc : IsLocal c t 0)
    (h1 : 1000 ≤ c.year) (h2 : c.year ≤ 9999) (junk : List Byte) (m : Mem) {size : Nat} (hs : 30 ≤ size)
    (hm : size ≤ m.length) :
    rfc2822utc g junk t (some m) size = some (0, some (text c "UTC" ++ 0 :: m.drop 30)) := by
  have hl : (text c "UTC").length = 29 := text_length hc.1 "UTC"
  have he := expand2822utc hc.1
  rw [dec_four h1 (by omega)] at he
  have he : expand _ _ = some (text c "UTC") := he
  unfold rfc2822utc
  simp only []
  rw [if_neg (by omega), timeStrf_fits (hg t c hc) he junk (by omega) hm, hl]
  rfl

/-- **C67.** A null pointer or a size too small for the text: -1, and the array is not touched (not even read). -/
theorem refused (g : Int → Option Tm) (junk : List Byte) (t : Int) (out : Option Mem) (size : Nat) :
    (out = none ∨ size < 30 → rfc1123 g junk t out size = some (-1, out) ∧ rfc2822utc g junk t out size = some (-1, out)) ∧
      (out = none ∨ size < 32 → rfc2822 g junk t out size = some (-1, out)) := by
  cases out with
  | none => simp [rfc1123, rfc2822, rfc2822utc]
  | some m =>
    simp only [reduceCtorEq, false_or]
    constructor
    · intro h; simp [rfc1123, rfc2822utc, h]
    · intro h; simp [rfc2822, h]

/-- FINDING: from the year 10000 on the text does not fit the 30 bytes given to `strftime`, whatever the size of the
caller's array; 0 is returned all the same, and except for the two names the array holds whatever `strftime` left
there, not necessarily a string. -/
theorem rfc1123_year_10000 {g : Int → Option Tm} (hg : Gmtime g) {t : Int} {c : Civil} (hc : IsLocal c t 0)
    (h1 : 10000 ≤ c.year) {junk : List Byte} (hj : junk.length = 30) (m : Mem) {size : Nat} (hs : 30 ≤ size)
    (hm : size ≤ m.length) :
    rfc1123 g junk t (some m) size = some (0, some (asc (dayName (weekday c)) ++ (junk.drop 3).take 5 ++
      asc (monthName c.month) ++ junk.drop 11 ++ m.drop 30)) := by
  have hw : weekday c < 7 := Nat.mod_lt _ (by omega)
  obtain ⟨a, b, d, e1⟩ := day3 (weekday c) hw
  obtain ⟨a', b', d', e2⟩ := month3 c.month hc.1.1
  have hy : 5 ≤ (decText c.year).length := by
    have := decText_length_le (n := c.year) (k := 4) (by omega)
    omega
  unfold rfc1123
  simp only []
  rw [if_neg (by omega), hg t c hc]
  simp only [Option.bind_eq_bind, Option.bind_some, strftime, expand1123 hc.1]
  rw [if_neg (by simp [asc, two]; omega), ← hj, List.take_length, Mem.store_eq_some (by simp; omega), Option.bind_some,
    names_day _ hw, Option.bind_some, e1, Mem.store_eq_some (by simp; omega), Option.bind_some,
    names_month _ hc.1.1, Option.bind_some, e2, Mem.store_eq_some (by simp; omega), Option.bind_some]
  rw [← lit_asc (dayName _), e1, ← lit_asc (monthName _), e2]
  have : ∃ j0 j1 j2 j3 j4 j5 j6 j7 j8 j9 j10 r, junk = j0 :: j1 :: j2 :: j3 :: j4 :: j5 :: j6 :: j7 :: j8 :: j9 :: j10 :: r := by
    match junk, hj with
    | j0 :: j1 :: j2 :: j3 :: j4 :: j5 :: j6 :: j7 :: j8 :: j9 :: j10 :: r, _ => exact ⟨_, _, _, _, _, _, _, _, _, _, _, _, rfl⟩
  obtain ⟨j0, j1, j2, j3, j4, j5, j6, j7, j8, j9, j10, r, rfl⟩ := this
  simp at hj
  simp

/-- FINDING: same for the other two functions with an array of the documented size. -/
theorem rfc2822_year_10000 {g : Int → Option Tm} (hg : Gmtime g) {t : Int} {c : Civil} (hc : IsLocal c t 0)
    (h1 : 10000 ≤ c.year) (m : Mem) :
    (∀ junk, junk.length = 32 → 32 ≤ m.length → rfc2822 g junk t (some m) 32 = some (0, some (junk ++ m.drop 32))) ∧
      (∀ junk, junk.length = 30 → 30 ≤ m.length → rfc2822utc g junk t (some m) 30 = some (0, some (junk ++ m.drop 30))) := by
  have hw : weekday c < 7 := Nat.mod_lt _ (by omega)
  obtain ⟨a, b, d, e1⟩ := day3 (weekday c) hw
  obtain ⟨a', b', d', e2⟩ := month3 c.month hc.1.1
  have hy : 5 ≤ (decText c.year).length := by
    have := decText_length_le (n := c.year) (k := 4) (by omega)
    omega
  constructor
  · intro junk hj hm
    unfold rfc2822
    simp only []
    rw [if_neg (by omega), timeStrf_junk (hg t c hc) (expand2822 hc.1)
      (by rw [← lit_asc (dayName _), e1, ← lit_asc (monthName _), e2]; simp [asc, two]; omega) (by omega) hm hj]
    rfl
  · intro junk hj hm
    unfold rfc2822utc
    simp only []
    rw [if_neg (by omega), timeStrf_junk (hg t c hc) (expand2822utc hc.1)
      (by rw [← lit_asc (dayName _), e1, ← lit_asc (monthName _), e2]; simp [asc, two]; omega) (by omega) hm hj]
    rfl

/-! ## Non-vacuity -/

/-- 2021-06-11 03:42:56, the example of the header. -/
def sample : Civil := { year := 2021, month := 5, day := 11, hour := 3, min := 42, sec := 56 }

theorem sample_local : IsLocal sample 1623382976 0 := by
  unfold IsLocal Civil.Valid Civil.seconds Civil.days
  simp only [sample, epoch]
  have e1 := TimeUtil.daysBeforeYear_eq 2021
  have e2 := TimeUtil.daysBeforeYear_eq 1970
  refine ⟨by decide, ?_⟩
  have e3 : daysBeforeMonth 2021 5 = 151 := by decide
  have e4 : daysBeforeMonth 1970 0 = 0 := rfl
  rw [e3, e4]
  omega

theorem sample_text : text sample "GMT" = asc "Fri, 11 Jun 2021 03:42:56 GMT" := by
  have e1 := TimeUtil.daysBeforeYear_eq 2021
  have e3 : daysBeforeMonth 2021 5 = 151 := by decide
  have e5 : weekday sample = 5 := by
    unfold weekday Civil.days
    simp only [sample]
    rw [e3]
    omega
  unfold text
  rw [e5]
  decide

/-- The contract of `gmtime_r` can be met. -/
theorem gmtime_exists : ∃ g, Gmtime g := by
  classical
  refine ⟨fun t => if h : ∃ c, IsLocal c t 0 then
    some { sec := h.choose.sec, min := h.choose.min, hour := h.choose.hour, mday := h.choose.day, mon := h.choose.month,
           year := h.choose.year, wday := weekday h.choose } else none, ?_⟩
  intro t c hc
  have hx : ∃ c, IsLocal c t 0 := ⟨c, hc⟩
  have e : hx.choose = c := TimeUtil.isLocal_unique hx.choose_spec hc
  simp only [dif_pos hx]
  rw [e]

end Verif.TimeRfc
