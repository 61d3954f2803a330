import Verif.TimeUtil.Date
import Verif.Strings.Copy
/-! # C50: the texts -/
namespace Verif.TimeUtil
open Spec

/-- the text without milliseconds -/
def base : Fmt → Civil → List Byte
  | .stamp, c => Spec.two (c.month + 1) ++ [45] ++ Spec.two c.day ++ [32] ++ Spec.two c.hour ++ [58] ++ Spec.two c.min ++
    [58] ++ Spec.two c.sec
  | .file, c => Spec.two (c.month + 1) ++ Spec.two c.day ++ Spec.two c.hour ++ Spec.two c.min ++ Spec.two c.sec

/-- the full text -/
def text (f : Fmt) (c : Civil) (ms : Nat) : List Byte :=
  match f with
  | .stamp => stampText c ms
  | .file => fileText c ms

theorem text_eq (f : Fmt) (c : Civil) (ms : Nat) : text f c ms = base f c ++ 46 :: three ms := by
  cases f <;> simp [text, base, stampText, fileText]

theorem digit_ne (n : Nat) : (0 : Byte) ≠ digit n := by
  intro h
  have := congrArg UInt8.toNat h
  simp only [digit, UInt8.toNat_ofNat'] at this
  have h0 : (0 : UInt8).toNat = 0 := rfl
  omega

theorem base_no0 (f : Fmt) (c : Civil) : (0 : Byte) ∉ base f c := by
  cases f <;> simp [base, Spec.two, digit_ne]

theorem base_length (f : Fmt) (c : Civil) : (base f c).length = 10 ∨ (base f c).length = 14 := by
  cases f <;> simp [base, Spec.two]

theorem text_no0 (f : Fmt) (c : Civil) (ms : Nat) : (0 : Byte) ∉ text f c ms := by
  rw [text_eq]
  simp [base_no0, three, digit_ne]

theorem text_length (f : Fmt) (c : Civil) (ms : Nat) : (text f c ms).length = (base f c).length + 4 := by
  rw [text_eq]; simp [three]

theorem two_eq {n : Nat} {lo hi : Int} (h1 : lo ≤ n) (h2 : (n : Int) ≤ hi) (h3 : hi ≤ 99) :
    two n lo hi = some (Spec.two n) := by
  unfold two Spec.two digit
  rw [if_pos ⟨h1, h2⟩, Int.toNat_natCast, Nat.mod_eq_of_lt (a := n / 10) (by omega)]

theorem strftime_eq (f : Fmt) {c : Civil} (h : c.Valid) (y : Int) :
    strftime f (Tm.mk c.sec c.min c.hour c.day c.month y) = some (base f c) := by
  obtain ⟨h1, h2, h3, h4, h5, h6⟩ := h
  have := monthLen_le c.year c.month
  unfold strftime
  simp only []
  rw [show ((c.month : Int) + 1) = ((c.month + 1 : Nat) : Int) by omega]
  rw [two_eq (by omega) (by omega) (by omega), two_eq (by omega) (by omega) (by omega),
    two_eq (by omega) (by omega) (by omega), two_eq (by omega) (by omega) (by omega),
    two_eq (by omega) (by omega) (by omega)]
  cases f <;> simp [base]

theorem store1 (pre post : List Byte) (x y : Byte) {off : Nat} (h : off = pre.length) :
    Mem.store (pre ++ x :: post) off [y] = some (pre ++ y :: post) := by
  subst h
  rw [Mem.store_eq_some (by simp), List.take_left, List.drop_append, List.drop_eq_nil_of_le (by simp)]
  simp

theorem printMillisec_eq (pre post : List Byte) (a b c d e : Byte) {num off : Nat} (h : off = pre.length) :
    printMillisec (pre ++ a :: b :: c :: d :: e :: post) off num = some (pre ++ 46 :: (three num ++ 0 :: post)) := by
  subst h
  unfold printMillisec
  rw [store1 _ _ _ _ rfl]
  simp only [Option.bind_eq_bind, Option.bind_some, millisLoop]
  have e1 : pre ++ 46 :: b :: c :: d :: e :: post = (pre ++ [46, b, c]) ++ d :: e :: post := by simp
  rw [e1, store1 _ _ _ _ (by simp)]
  simp only [Option.bind_some]
  have e2 : ∀ z : Byte, (pre ++ [46, b, c]) ++ z :: e :: post = (pre ++ [46, b]) ++ c :: z :: e :: post := by intro z; simp
  rw [e2, store1 _ _ _ _ (by simp)]
  simp only [Option.bind_some]
  have e3 : ∀ z y : Byte, (pre ++ [46, b]) ++ y :: z :: e :: post = (pre ++ [46]) ++ b :: y :: z :: e :: post := by intro z y; simp
  rw [e3, store1 _ _ _ _ (by simp)]
  simp only [Option.bind_some]
  have e4 : ∀ z y x : Byte, (pre ++ [46]) ++ x :: y :: z :: e :: post = (pre ++ [46, x, y, z]) ++ e :: post := by intro z y x; simp
  rw [e4, store1 _ _ _ _ (by simp)]
  simp only [three, digit, Nat.div_div_eq_div_mul]
  simp

/-- Seconds, microseconds and zone the theorems are about. -/
structure TimeOk (sec usec zone : Int) : Prop where
  sec0 : 0 ≤ sec
  sec1 : sec < 2147483648
  zone1 : zone ≤ 2146000000
  loc : 0 ≤ sec + 3600 * zone
  usec0 : 0 ≤ usec
  usec1 : usec < 1000000

theorem millis_eq {usec : Int} (h0 : 0 ≤ usec) (h1 : usec < 1000000) : millis usec = usec.toNat / 1000 := by
  unfold millis
  rw [Int.tdiv_eq_ediv_of_nonneg h0]
  omega

theorem cut5 (l : List Byte) (h : 4 ≤ l.length) : ∃ b c d e post, l = b :: c :: d :: e :: post := by
  match l with
  | [] | [_] | [_, _] | [_, _, _] => simp at h
  | b :: c :: d :: e :: post => exact ⟨b, c, d, e, post, rfl⟩

theorem fresh_eq (str : Mem) {sec usec zone : Int} (f : Fmt) (h : TimeOk sec usec zone) (hs : 24 ≤ str.length) :
    ∃ c after, IsLocal c sec zone ∧
      fresh str sec usec f zone = some (text f c (usec.toNat / 1000) ++ 0 :: after,
        ((text f c (usec.toNat / 1000)).length : Int)) ∧
      (text f c (usec.toNat / 1000) ++ 0 :: after).length = str.length := by
  obtain ⟨c, hl, e⟩ := second2date_eq h.sec0 h.sec1 h.zone1 h.loc
  have hb := base_length f c
  obtain ⟨x1, x2, x3, x4, post, hx⟩ := cut5 (str.drop ((base f c).length + 1)) (by rw [List.length_drop]; omega)
  have hlen := congrArg List.length hx
  simp only [List.length_drop, List.length_cons] at hlen
  refine ⟨c, post, hl, ?_, ?_⟩
  · unfold fresh formatTime
    rw [e]
    simp only [Option.bind_eq_bind, Option.bind_some]
    rw [strftime_eq f hl.1]
    simp only [Option.bind_some]
    rw [Mem.store_eq_some (by simp; omega)]
    simp only [Option.bind_some, Option.pure_def, List.take_zero, List.nil_append, Nat.zero_add, List.length_append,
      List.length_singleton]
    rw [hx, List.append_assoc, List.singleton_append, printMillisec_eq _ _ _ _ _ _ _ rfl, text_length, text_eq,
      millis_eq h.usec0 h.usec1]
    simp
  · rw [List.length_append, text_length, List.length_cons]; omega

end Verif.TimeUtil
