import Verif.StrDouble.Props
/-! # Which texts `str_params_get_double` accepts (C85) -/
namespace Verif.StrDouble.Spec
open Verif.StrParams.Spec (isHex hexVal)

/-- a digit: decimal, or hexadecimal -/
def isDig (hex : Bool) (c : Byte) : Prop := if hex then isHex c else 48 ≤ c.toNat ∧ c.toNat ≤ 57

/-- value of a string of digits -/
def value (hex : Bool) (ds : List Byte) : Nat := ds.foldl (fun a d => a * (if hex then 16 else 10) + hexVal d) 0

/-- digits with or without a point, at least one digit: the value without the point, and the digits behind it -/
inductive Number (hex : Bool) : List Byte → Nat → Nat → Prop
  | int (ds : List Byte) (hd : ∀ d ∈ ds, isDig hex d) (hne : ds ≠ []) : Number hex ds (value hex ds) 0
  | point (a f : List Byte) (ha : ∀ d ∈ a, isDig hex d) (hf : ∀ d ∈ f, isDig hex d) (hne : a ++ f ≠ []) :
      Number hex (a ++ 46 :: f) (value hex (a ++ f)) f.length

/-- an optional exponent, introduced by the letter `lo` or `up` -/
inductive Expo (lo up : Byte) : List Byte → Int → Prop
  | none : Expo lo up [] 0
  | plain (c : Byte) (ds : List Byte) (hc : c = lo ∨ c = up) (hd : ∀ d ∈ ds, isDig false d) (hne : ds ≠ []) :
      Expo lo up (c :: ds) (value false ds)
  | plus (c : Byte) (ds : List Byte) (hc : c = lo ∨ c = up) (hd : ∀ d ∈ ds, isDig false d) (hne : ds ≠ []) :
      Expo lo up (c :: 43 :: ds) (value false ds)
  | minus (c : Byte) (ds : List Byte) (hc : c = lo ∨ c = up) (hd : ∀ d ∈ ds, isDig false d) (hne : ds ≠ []) :
      Expo lo up (c :: 45 :: ds) (-(value false ds : Int))

/-- the same letters, in any case -/
def word (w t : List Byte) : Prop :=
  t.map (fun c => if 65 ≤ c.toNat ∧ c.toNat ≤ 90 then UInt8.ofNat (c.toNat + 32) else c) = w

/-- letters, digits, underscore -/
def wordChar (c : Byte) : Prop :=
  (48 ≤ c.toNat ∧ c.toNat ≤ 57) ∨ (65 ≤ c.toNat ∧ c.toNat ≤ 90) ∨ (97 ≤ c.toNat ∧ c.toNat ≤ 122) ∨ c = 95

/-- C's floating constants without sign (ISO C 7.22.1.3) -/
inductive Const : List Byte → Lit → Prop
  | dec (t u : List Byte) (n k : Nat) (e : Int) (ht : Number false t n k) (hu : Expo 101 69 u e) :
      Const (t ++ u) (.num n 10 (e - k))
  | hex (x : Byte) (t u : List Byte) (n k : Nat) (e : Int) (hx : x = 120 ∨ x = 88) (ht : Number true t n k)
      (hu : Expo 112 80 u e) : Const (48 :: x :: (t ++ u)) (.num n 2 (e - 4 * k))
  | inf (t : List Byte) (h : word [105, 110, 102] t ∨ word [105, 110, 102, 105, 110, 105, 116, 121] t) : Const t .inf
  | nan (t : List Byte) (h : word [110, 97, 110] t) : Const t .nan
  | nanBody (t b : List Byte) (h : word [110, 97, 110] t) (hb : ∀ c ∈ b, wordChar c) : Const (t ++ 40 :: (b ++ [41])) .nan

/-- white space, optional sign, constant -/
inductive Signed : List Byte → Bool → Lit → Prop
  | plain (ws b : List Byte) (l : Lit) (hw : ∀ c ∈ ws, c = 32 ∨ (9 ≤ c.toNat ∧ c.toNat ≤ 13)) (hb : Const b l) :
      Signed (ws ++ b) false l
  | plus (ws b : List Byte) (l : Lit) (hw : ∀ c ∈ ws, c = 32 ∨ (9 ≤ c.toNat ∧ c.toNat ≤ 13)) (hb : Const b l) :
      Signed (ws ++ 43 :: b) false l
  | minus (ws b : List Byte) (l : Lit) (hw : ∀ c ∈ ws, c = 32 ∨ (9 ≤ c.toNat ∧ c.toNat ≤ 13)) (hb : Const b l) :
      Signed (ws ++ 45 :: b) true l

/-- the magnitude of a number -/
def Lit.magnitude : Lit → Option ℚ
  | .num n b e => some ((n : ℚ) * (b : ℚ) ^ e)
  | _ => none

/-- the double a constant denotes: infinity, not-a-number, or a nearest double (infinity from 2^1024 - 2^970 on) -/
def Denotes (neg : Bool) : Lit → Dbl → Prop
  | .inf, x => x = .inf neg
  | .nan, x => x = .nan neg
  | .num n b e, x =>
    if (n : ℚ) * (b : ℚ) ^ e < 2 ^ 1024 - 2 ^ 970 then
      ∃ m k, x = .fin neg m k ∧ IsDouble m k ∧
        ∀ m' k', IsDouble m' k' → |mag m k - (n : ℚ) * (b : ℚ) ^ e| ≤ |mag m' k' - (n : ℚ) * (b : ℚ) ^ e|
    else x = .inf neg

end Verif.StrDouble.Spec

namespace Verif.StrDouble
open Verif.StrParams Verif.Strings Spec
open Verif.StrParams.Spec (isHex hexVal)

def bs (hex : Bool) : Nat := if hex then 16 else 10

theorem digit_iff (hex : Bool) (c : Byte) (d : Nat) :
    (digitVal c = some d ∧ d < bs hex) ↔ isDig hex c ∧ d = hexVal c := by
  constructor
  · rintro ⟨h, hb⟩
    cases hex with
    | true =>
      have hh := digitVal_lt16 h hb
      have := digitVal_hex hh
      rw [h] at this
      exact ⟨hh, by simpa using this.1⟩
    | false =>
      have hh := digitVal_lt h hb (by decide)
      have h2 := digitVal_hex (c := c) (.inl ⟨hh.1, by have := hh.2; simp [bs] at this; omega⟩)
      rw [h] at h2
      refine ⟨⟨hh.1, by have := hh.2; simp [bs] at this; omega⟩, by simpa using h2.1⟩
  · rintro ⟨h, rfl⟩
    cases hex with
    | true => exact digitVal_hex h
    | false =>
      have h : 48 ≤ c.toNat ∧ c.toNat ≤ 57 := h
      have h2 := digitVal_hex (c := c) (.inl h)
      refine ⟨h2.1, ?_⟩
      unfold hexVal bs
      simp only [Bool.false_eq_true, if_false]
      split <;> omega

/-- the front does not start with a digit -/
def noDigit (hex : Bool) (r : List Byte) : Prop := ∀ c t, r = c :: t → ¬ isDig hex c

def valFrom (hex : Bool) (acc : Nat) (ds : List Byte) : Nat :=
  ds.foldl (fun a d => a * (if hex then 16 else 10) + hexVal d) acc

theorem scan_eq (hex : Bool) (ds r : List Byte) (hd : ∀ d ∈ ds, isDig hex d) (hr : noDigit hex r) : ∀ acc cnt,
    scan (bs hex) acc cnt (ds ++ r) = (valFrom hex acc ds, cnt + ds.length, r) := by
  induction ds with
  | nil =>
    intro acc cnt
    cases r with
    | nil => rfl
    | cons c t =>
      simp only [List.nil_append, scan, valFrom, List.foldl_nil, List.length_nil, Nat.add_zero]
      cases h : digitVal c with
      | none => rfl
      | some d =>
        simp only
        rw [if_neg]
        intro hb
        exact hr c t rfl ((digit_iff hex c d).1 ⟨h, hb⟩).1
  | cons c l ih =>
    intro acc cnt
    obtain ⟨h1, h2⟩ := (digit_iff hex c (hexVal c)).2 ⟨hd c (List.mem_cons_self ..), rfl⟩
    simp only [List.cons_append, scan, h1]
    rw [if_pos h2, ih (fun x hx => hd x (List.mem_cons_of_mem _ hx))]
    simp only [valFrom, List.foldl_cons, List.length_cons]
    refine Prod.ext ?_ (Prod.ext ?_ rfl)
    · cases hex <;> rfl
    · simp only; omega

theorem split_digits (hex : Bool) (s : List Byte) :
    ∃ ds r, s = ds ++ r ∧ (∀ d ∈ ds, isDig hex d) ∧ noDigit hex r := by
  induction s with
  | nil => exact ⟨[], [], rfl, by simp, by simp [noDigit]⟩
  | cons c s ih =>
    by_cases h : isDig hex c
    · obtain ⟨ds, r, rfl, a, b⟩ := ih
      refine ⟨c :: ds, r, rfl, ?_, b⟩
      intro d hd
      rcases List.mem_cons.1 hd with rfl | hd
      · exact h
      · exact a d hd
    · refine ⟨[], c :: s, rfl, by simp, ?_⟩
      intro c' t h'
      cases h'
      exact h

theorem dot_noDigit (hex : Bool) (t : List Byte) : noDigit hex (46 :: t) := by
  intro c t' h
  cases h
  cases hex <;> simp [isDig, isHex]

theorem valFrom_append (hex : Bool) (acc : Nat) (a f : List Byte) :
    valFrom hex (valFrom hex acc a) f = valFrom hex acc (a ++ f) := by
  simp [valFrom]

/-- numbers are what `mantissa` reads, up to a character that cannot continue them -/
theorem mantissa_number {hex : Bool} {t : List Byte} {n k : Nat} (h : Number hex t n k) {r : List Byte}
    (hr : noDigit hex r) (hp : ∀ u, r ≠ 46 :: u) : mantissa (bs hex) (t ++ r) = some (n, k, r) := by
  cases h with
  | int _ hd hne =>
    have : 0 < t.length := List.length_pos_iff.2 hne
    unfold mantissa
    rw [scan_eq hex t r hd hr]
    split
    · next h => simp only [Prod.mk.injEq] at h; exact absurd h.2.2 (hp _)
    · next h =>
      simp only [Prod.mk.injEq] at h
      obtain ⟨rfl, rfl, rfl⟩ := h
      rw [if_neg (by omega)]
      rfl
  | point a f ha hf hne =>
    have hl : 0 < a.length + f.length := by
      rw [← List.length_append]
      exact List.length_pos_iff.2 hne
    unfold mantissa
    rw [List.append_assoc, List.cons_append, scan_eq hex a _ ha (dot_noDigit hex _)]
    simp only
    rw [scan_eq hex f r hf hr]
    simp only [valFrom_append]
    rw [if_neg (by omega)]
    simp [value, valFrom]

theorem mantissa_some {hex : Bool} {s : List Byte} {n k : Nat} {r : List Byte}
    (h : mantissa (bs hex) s = some (n, k, r)) : ∃ t, s = t ++ r ∧ Number hex t n k := by
  obtain ⟨ds, r1, rfl, hd, hr⟩ := split_digits hex s
  unfold mantissa at h
  rw [scan_eq hex ds r1 hd hr] at h
  split at h
  · next n1 c1 r2 heq =>
    simp only [Prod.mk.injEq] at heq
    obtain ⟨rfl, rfl, rfl⟩ := heq
    obtain ⟨fs, r3, rfl, hf, hr3⟩ := split_digits hex r2
    rw [scan_eq hex fs r3 hf hr3] at h
    simp only at h
    split at h
    · cases h
    · next hz =>
      simp only [Option.some.injEq, Prod.mk.injEq] at h
      obtain ⟨rfl, rfl, rfl⟩ := h
      refine ⟨ds ++ 46 :: fs, by simp, ?_⟩
      have := Number.point (hex := hex) ds fs hd hf (by
        intro h0
        have := congrArg List.length h0
        simp only [List.length_append, List.length_nil] at this
        omega)
      rw [valFrom_append]
      simpa [value, valFrom] using this
  · next n1 c1 r2 _ heq =>
    simp only [Prod.mk.injEq] at heq
    obtain ⟨rfl, rfl, rfl⟩ := heq
    split at h
    · cases h
    · next hz =>
      simp only [Option.some.injEq, Prod.mk.injEq] at h
      obtain ⟨rfl, rfl, rfl⟩ := h
      refine ⟨ds, rfl, .int ds hd ?_⟩
      rintro rfl
      simp at hz

theorem expDigits_eq (neg : Bool) (ds w : List Byte) (hd : ∀ d ∈ ds, isDig false d) (hne : ds ≠ []) :
    expDigits neg ds w = (if neg then -(value false ds : Int) else value false ds, []) := by
  have h := scan_eq false ds [] hd (by simp [noDigit]) 0 0
  rw [List.append_nil] at h
  have : 0 < ds.length := List.length_pos_iff.2 hne
  unfold expDigits
  have h : scan 10 0 0 ds = (valFrom false 0 ds, 0 + ds.length, []) := h
  rw [h]
  split
  · next h => simp only [Prod.mk.injEq] at h; omega
  · next h =>
    simp only [Prod.mk.injEq] at h
    obtain ⟨rfl, _, rfl⟩ := h
    rfl

theorem exponent_expo {lo up : Byte} {u : List Byte} {e : Int} (h : Expo lo up u e) : exponent lo up u = (e, []) := by
  cases h with
  | none => rfl
  | plain c ds hc hd hne =>
    have hx : ∀ x : Byte, (48 ≤ x.toNat → False) → ∀ t, ds ≠ x :: t := by
      rintro x hx t rfl
      exact hx (hd x (by simp)).1
    unfold exponent
    simp only [if_pos hc]
    split
    · next r' => exact absurd rfl (hx 45 (by decide) r')
    · next r' => exact absurd rfl (hx 43 (by decide) r')
    · rw [expDigits_eq false ds _ hd hne]; rfl
  | plus c ds hc hd hne =>
    unfold exponent
    simp only [if_pos hc]
    rw [expDigits_eq false ds _ hd hne]; rfl
  | minus c ds hc hd hne =>
    unfold exponent
    simp only [if_pos hc]
    rw [expDigits_eq true ds _ hd hne]; rfl

theorem expDigits_nil {neg : Bool} {s w : List Byte} (hw : w ≠ []) {e : Int} (h : expDigits neg s w = (e, [])) :
    (∀ d ∈ s, isDig false d) ∧ s ≠ [] ∧ e = if neg then -(value false s : Int) else value false s := by
  obtain ⟨ds, r1, rfl, hd, hr⟩ := split_digits false s
  unfold expDigits at h
  have hs : scan 10 0 0 (ds ++ r1) = _ := scan_eq false ds r1 hd hr 0 0
  rw [hs] at h
  split at h
  · simp only [Prod.mk.injEq] at h
    exact absurd h.2 hw
  · next n c r hz heq =>
    simp only [Prod.mk.injEq] at heq
    obtain ⟨rfl, hc, rfl⟩ := heq
    simp only [Prod.mk.injEq] at h
    obtain ⟨rfl, rfl⟩ := h
    rw [List.append_nil]
    refine ⟨hd, ?_, rfl⟩
    rintro rfl
    exact hz (by simpa using hc.symm)

theorem exponent_nil {lo up : Byte} {u : List Byte} {e : Int} (h : exponent lo up u = (e, [])) : Expo lo up u e := by
  unfold exponent at h
  split at h
  · next c r =>
    split at h
    · next hc =>
      split at h
      · obtain ⟨a, b, rfl⟩ := expDigits_nil (by simp) h
        exact .minus c _ hc a b
      · obtain ⟨a, b, rfl⟩ := expDigits_nil (by simp) h
        exact .plus c _ hc a b
      · obtain ⟨a, b, rfl⟩ := expDigits_nil (by simp) h
        exact .plain c _ hc a b
    · simp at h
  · cases h
    exact .none

theorem starts_iff (w s : List Byte) : starts w s = true ↔ ∃ t r, s = t ++ r ∧ word w t := by
  unfold starts word
  rw [decide_eq_true_iff]
  constructor
  · rintro ⟨h1, h2⟩
    exact ⟨s.take w.length, s.drop w.length, (List.take_append_drop ..).symm, h2⟩
  · rintro ⟨t, r, rfl, h⟩
    have hl : t.length = w.length := by rw [← h, List.length_map]
    refine ⟨by simp [hl], ?_⟩
    rw [← hl, List.take_left]
    exact h

theorem word_length {w t : List Byte} (h : word w t) : t.length = w.length := by
  rw [← h, List.length_map]

theorem lower_eq (c : Byte) : lower c = if 65 ≤ c.toNat ∧ c.toNat ≤ 90 then UInt8.ofNat (c.toNat + 32) else c := rfl

theorem word_cons {x : Byte} {w : List Byte} {t : List Byte} (h : word (x :: w) t) : ∃ c u, t = c :: u ∧ lower c = x ∧ word w u := by
  cases t with
  | nil => simp [word] at h
  | cons c u =>
    simp only [word, List.map_cons, List.cons.injEq] at h
    exact ⟨c, u, rfl, h.1, h.2⟩

/-- a text whose first letter, in lower case, is another -/
theorem starts_head {x : Byte} {w : List Byte} {c : Byte} {t : List Byte} (h : lower c ≠ x) : starts (x :: w) (c :: t) = false := by
  rw [Bool.eq_false_iff]
  intro hs
  obtain ⟨t', r, he, hw⟩ := (starts_iff _ _).1 hs
  obtain ⟨c', u, rfl, hc, _⟩ := word_cons hw
  simp only [List.cons_append, List.cons.injEq] at he
  rw [← he.1] at hc
  exact h hc

theorem lower_of_digit {c : Byte} (h : isDig false c) : lower c = c := by
  have h : 48 ≤ c.toNat ∧ c.toNat ≤ 57 := h
  unfold lower
  rw [if_neg (by omega)]

/-- the first character of a decimal number -/
theorem number_head {t : List Byte} {n k : Nat} (h : Number false t n k) :
    ∃ c u, t = c :: u ∧ (isDig false c ∨ c = 46) ∧ ∀ d v, u = d :: v → isDig false d ∨ d = 46 := by
  cases h with
  | int _ hd hne =>
    obtain ⟨c, u, rfl⟩ := List.exists_cons_of_ne_nil hne
    refine ⟨c, u, rfl, .inl (hd c (by simp)), ?_⟩
    rintro d v rfl
    exact .inl (hd d (by simp))
  | point a f ha hf hne =>
    cases a with
    | nil =>
      refine ⟨46, f, rfl, .inr rfl, ?_⟩
      rintro d v rfl
      exact .inl (hf d (by simp))
    | cons c a =>
      refine ⟨c, a ++ 46 :: f, rfl, .inl (ha c (by simp)), ?_⟩
      intro d v hv
      cases a with
      | nil => simp only [List.nil_append, List.cons.injEq] at hv; exact .inr hv.1.symm
      | cons d' a =>
        simp only [List.cons_append, List.cons.injEq] at hv
        rw [← hv.1]
        exact .inl (ha d' (by simp))

theorem expo_head {lo up : Byte} {u : List Byte} {e : Int} (h : Expo lo up u e) : u = [] ∨ ∃ c v, u = c :: v ∧ (c = lo ∨ c = up) := by
  cases h with
  | none => exact .inl rfl
  | plain c ds hc => exact .inr ⟨c, _, rfl, hc⟩
  | plus c ds hc => exact .inr ⟨c, _, rfl, hc⟩
  | minus c ds hc => exact .inr ⟨c, _, rfl, hc⟩

theorem literal_head_dec {c : Byte} {t : List Byte} (hc : isDig false c ∨ c = 46) :
    starts [105, 110, 102, 105, 110, 105, 116, 121] (c :: t) = false ∧ starts [105, 110, 102] (c :: t) = false ∧
    starts [110, 97, 110] (c :: t) = false := by
  have hl : lower c = c := by
    rcases hc with hc | rfl
    · exact lower_of_digit hc
    · decide
  have hn : ∀ x : Byte, 57 < x.toNat → lower c ≠ x := by
    intro x hx h
    rw [hl] at h
    subst h
    rcases hc with hc | rfl
    · have := hc.2; omega
    · revert hx; decide
  exact ⟨starts_head (hn 105 (by decide)), starts_head (hn 105 (by decide)), starts_head (hn 110 (by decide))⟩

theorem nanRest_body (b : List Byte) (hb : ∀ c ∈ b, wordChar c) : nanRest (40 :: (b ++ [41])) = [] := by
  have hw : ∀ c ∈ b, ((digitVal c).isSome || decide (c = 95)) = true := by
    intro c hc
    rcases hb c hc with h | h | h | rfl
    · simp [digitVal, h]
    · have : ¬ (48 ≤ c.toNat ∧ c.toNat ≤ 57) := by omega
      have h3 : ¬ (97 ≤ c.toNat ∧ c.toNat ≤ 122) := by omega
      simp [digitVal, this, h, h3]
    · have : ¬ (48 ≤ c.toNat ∧ c.toNat ≤ 57) := by omega
      simp [digitVal, this, h]
    · simp
  have ht : (b ++ [41]).takeWhile (fun c => (digitVal c).isSome || decide (c = 95)) = b := by
    rw [List.takeWhile_append_of_pos hw]
    have : List.takeWhile (fun a : Byte => (digitVal a).isSome || decide (a = 95)) [41] = [] := by decide
    rw [this, List.append_nil]
  unfold nanRest
  simp only [ht, List.drop_left]

theorem nanRest_nil {r : List Byte} (h : nanRest r = []) : r = [] ∨ ∃ b, r = 40 :: (b ++ [41]) ∧ ∀ c ∈ b, wordChar c := by
  unfold nanRest at h
  split at h
  · next r =>
    simp only at h
    split at h
    · next r' heq =>
      subst h
      refine .inr ⟨r.takeWhile fun c => (digitVal c).isSome || decide (c = 95), ?_, ?_⟩
      · have hd := StrParams.drop_takeWhile (fun c : Byte => (digitVal c).isSome || decide (c = 95)) r 0
        rw [Nat.add_zero, List.drop_zero] at hd
        rw [← heq, hd, List.takeWhile_append_dropWhile]
      · intro c hc
        have hp : ((digitVal c).isSome || decide (c = 95)) = true := by
          have := List.all_takeWhile (p := fun c => (digitVal c).isSome || decide (c = 95)) (l := r)
          exact List.all_eq_true.1 this c hc
        simp only [Bool.or_eq_true, decide_eq_true_eq] at hp
        rcases hp with hp | rfl
        · unfold digitVal at hp
          unfold wordChar
          split at hp
          · exact .inl (by assumption)
          · split at hp
            · exact .inr (.inr (.inl (by assumption)))
            · split at hp
              · exact .inr (.inl (by assumption))
              · simp at hp
        · exact .inr (.inr (.inr rfl))
    · simp at h
  · exact .inl h

/-- a constant is read in full -/
theorem literal_const {s : List Byte} {l : Lit} (h : Const s l) : literal s = some (l, []) := by
  cases h with
  | dec t u n k e ht hu =>
    obtain ⟨c, v, rfl, hc, hv⟩ := number_head ht
    obtain ⟨s1, s2, s3⟩ := literal_head_dec (t := v ++ u) hc
    have hx : starts [48, 120] (c :: (v ++ u)) = false := by
      rw [Bool.eq_false_iff]
      intro hs
      obtain ⟨t', r, he, hw⟩ := (starts_iff _ _).1 hs
      obtain ⟨c1, u1, rfl, _, hw2⟩ := word_cons hw
      obtain ⟨c2, u2, rfl, hc2, _⟩ := word_cons hw2
      simp only [List.cons_append, List.cons.injEq] at he
      have he := he.2
      cases v with
      | nil =>
        rcases expo_head hu with rfl | ⟨c', v', rfl, hc'⟩
        · simp at he
        · simp only [List.nil_append, List.cons.injEq] at he
          rw [← he.1] at hc2
          rcases hc' with rfl | rfl <;> revert hc2 <;> decide
      | cons d v =>
        simp only [List.cons_append, List.cons.injEq] at he
        rw [← he.1] at hc2
        rcases hv d v rfl with hd | rfl
        · rw [lower_of_digit hd] at hc2
          subst hc2
          have := hd.2
          revert this; decide
        · revert hc2; decide
    have hr : noDigit false u := by
      intro c' t' hh
      rcases expo_head hu with rfl | ⟨c2, v', rfl, hc'⟩
      · cases hh
      · simp only [List.cons.injEq] at hh
        rw [← hh.1]
        rcases hc' with rfl | rfl <;> simp [isDig]
    have hp : ∀ w, u ≠ 46 :: w := by
      intro w hh
      rcases expo_head hu with rfl | ⟨c2, v', rfl, hc'⟩
      · cases hh
      · simp only [List.cons.injEq] at hh
        rw [hh.1] at hc'
        revert hc'; decide
    have hm : mantissa 10 ((c :: v) ++ u) = some (n, k, u) := mantissa_number ht hr hp
    unfold literal
    rw [List.cons_append] at hm ⊢
    simp only [s1, s2, s3, hx, Bool.false_eq_true, if_false, hm, exponent_expo hu]
  | hex x t u n k e hx ht hu =>
    have d0 : isDig false 48 := by simp [isDig]
    obtain ⟨s1, s2, s3⟩ := literal_head_dec (c := 48) (t := x :: (t ++ u)) (.inl d0)
    have hs : starts [48, 120] (48 :: x :: (t ++ u)) = true := by
      rw [starts_iff]
      refine ⟨[48, x], t ++ u, rfl, ?_⟩
      rcases hx with rfl | rfl <;> (unfold word; decide)
    have hr : noDigit true u := by
      intro c' t' hh
      rcases expo_head hu with rfl | ⟨c2, v', rfl, hc'⟩
      · cases hh
      · simp only [List.cons.injEq] at hh
        rw [← hh.1]
        rcases hc' with rfl | rfl <;> simp [isDig, isHex]
    have hp : ∀ w, u ≠ 46 :: w := by
      intro w hh
      rcases expo_head hu with rfl | ⟨c2, v', rfl, hc'⟩
      · cases hh
      · simp only [List.cons.injEq] at hh
        rw [hh.1] at hc'
        revert hc'; decide
    have hm : mantissa 16 (t ++ u) = some (n, k, u) := mantissa_number ht hr hp
    unfold literal
    simp only [s1, s2, s3, hs, Bool.false_eq_true, if_false, if_true, List.drop_succ_cons, List.drop_zero, hm,
      exponent_expo hu]
  | inf _ h =>
    unfold literal
    rcases h with h | h
    · have h8 : starts [105, 110, 102, 105, 110, 105, 116, 121] s = false := by
        rw [Bool.eq_false_iff]
        intro hs
        obtain ⟨t', r, he, hw⟩ := (starts_iff _ _).1 hs
        have h1 := word_length h
        have h2 := word_length hw
        rw [he] at h1
        simp at h1 h2
        omega
      have h3 : starts [105, 110, 102] s = true := (starts_iff _ _).2 ⟨s, [], by simp, h⟩
      simp only [h8, h3, Bool.false_eq_true, if_false, if_true]
      rw [List.drop_of_length_le (by rw [word_length h]; decide)]
    · have h8 : starts [105, 110, 102, 105, 110, 105, 116, 121] s = true := (starts_iff _ _).2 ⟨s, [], by simp, h⟩
      simp only [h8, if_true]
      rw [List.drop_of_length_le (by rw [word_length h]; decide)]
  | nan _ h =>
    obtain ⟨c, u, rfl, hc, _⟩ := word_cons h
    have h8 : starts [105, 110, 102, 105, 110, 105, 116, 121] (c :: u) = false := starts_head (by rw [hc]; decide)
    have h3 : starts [105, 110, 102] (c :: u) = false := starts_head (by rw [hc]; decide)
    have hn : starts [110, 97, 110] (c :: u) = true := (starts_iff _ _).2 ⟨c :: u, [], by simp, h⟩
    unfold literal
    simp only [h8, h3, hn, Bool.false_eq_true, if_false, if_true]
    rw [List.drop_of_length_le (by rw [word_length h]; decide)]
    rfl
  | nanBody t b h hb =>
    obtain ⟨c, u, rfl, hc, _⟩ := word_cons h
    have h8 : starts [105, 110, 102, 105, 110, 105, 116, 121] ((c :: u) ++ 40 :: (b ++ [41])) = false := starts_head (by rw [hc]; decide)
    have h3 : starts [105, 110, 102] ((c :: u) ++ 40 :: (b ++ [41])) = false := starts_head (by rw [hc]; decide)
    have hn : starts [110, 97, 110] ((c :: u) ++ 40 :: (b ++ [41])) = true := (starts_iff _ _).2 ⟨c :: u, _, rfl, h⟩
    unfold literal
    simp only [h8, h3, hn, Bool.false_eq_true, if_false, if_true]
    have hl : (c :: u).length = 3 := word_length h
    rw [show (3 : Nat) = (c :: u).length from hl.symm, List.drop_left, nanRest_body b hb]

/-- what is read in full is a constant -/
theorem literal_full {s : List Byte} {l : Lit} (h : literal s = some (l, [])) : Const s l := by
  unfold literal at h
  split at h
  · next hs =>
    simp only [Option.some.injEq, Prod.mk.injEq] at h
    obtain ⟨rfl, h⟩ := h
    obtain ⟨t, r, rfl, hw⟩ := (starts_iff _ _).1 hs
    have hl := word_length hw
    rw [show (8 : Nat) = t.length from hl.symm, List.drop_left] at h
    subst h
    rw [List.append_nil]
    exact .inf t (.inr hw)
  · split at h
    · next hs =>
      simp only [Option.some.injEq, Prod.mk.injEq] at h
      obtain ⟨rfl, h⟩ := h
      obtain ⟨t, r, rfl, hw⟩ := (starts_iff _ _).1 hs
      have hl := word_length hw
      rw [show (3 : Nat) = t.length from hl.symm, List.drop_left] at h
      subst h
      rw [List.append_nil]
      exact .inf t (.inl hw)
    · split at h
      · next hs =>
        simp only [Option.some.injEq, Prod.mk.injEq] at h
        obtain ⟨rfl, h⟩ := h
        obtain ⟨t, r, rfl, hw⟩ := (starts_iff _ _).1 hs
        have hl := word_length hw
        rw [show (3 : Nat) = t.length from hl.symm, List.drop_left] at h
        rcases nanRest_nil h with rfl | ⟨b, rfl, hb⟩
        · rw [List.append_nil]
          exact .nan t hw
        · exact .nanBody t b hw hb
      · split at h
        · next n k r hm =>
          split at hm
          · next hs =>
            obtain ⟨t, r0, rfl, hw⟩ := (starts_iff _ _).1 hs
            obtain ⟨c, u, rfl, hc, hw⟩ := word_cons hw
            obtain ⟨x, u', rfl, hx, hw⟩ := word_cons hw
            have hu : u' = [] := by simpa [word] using hw
            subst hu
            simp only [List.cons_append, List.nil_append, List.drop_succ_cons, List.drop_zero] at hm ⊢
            obtain ⟨t, rfl, ht⟩ := mantissa_some (hex := true) hm
            generalize hee : exponent 112 80 r = ee at h
            obtain ⟨e, r'⟩ := ee
            simp only [Option.some.injEq, Prod.mk.injEq] at h
            obtain ⟨rfl, rfl⟩ := h
            have hc48 : c = 48 := by
              unfold lower at hc
              split at hc
              · next hr =>
                have := congrArg UInt8.toNat hc
                rw [UInt8.toNat_ofNat'] at this
                have h48 : (48 : UInt8).toNat = 48 := rfl
                omega
              · exact hc
            have hxx : x = 120 ∨ x = 88 := by
              unfold lower at hx
              split at hx
              · next hr =>
                have := congrArg UInt8.toNat hx
                rw [UInt8.toNat_ofNat'] at this
                have h120 : (120 : UInt8).toNat = 120 := rfl
                have h88 : (88 : UInt8).toNat = 88 := rfl
                exact .inr (UInt8.toNat_inj.1 (by omega))
              · exact .inl hx
            subst hc48
            exact .hex x t r n k e hxx ht (exponent_nil hee)
          · cases hm
        · split at h
          · cases h
          · next n k r hm =>
            obtain ⟨t, rfl, ht⟩ := mantissa_some (hex := false) hm
            generalize hee : exponent 101 69 r = ee at h
            obtain ⟨e, r'⟩ := ee
            simp only [Option.some.injEq, Prod.mk.injEq] at h
            obtain ⟨rfl, rfl⟩ := h
            exact .dec t r n k e ht (exponent_nil hee)

/-- the first character of a constant is no blank and no sign -/
theorem const_head {b : List Byte} {l : Lit} (h : Const b l) :
    ∃ c t, b = c :: t ∧ isSpace c = false ∧ c ≠ 45 ∧ c ≠ 43 := by
  have dig : ∀ c : Byte, isDig false c ∨ c = 46 → isSpace c = false ∧ c ≠ 45 ∧ c ≠ 43 := by
    rintro c (h | rfl)
    · refine ⟨isSpace_digit h, ?_, ?_⟩
      · rintro rfl
        have := h.1
        revert this; decide
      · rintro rfl
        have := h.1
        revert this; decide
    · decide
  have low : ∀ c : Byte, lower c = 105 ∨ lower c = 110 → isSpace c = false ∧ c ≠ 45 ∧ c ≠ 43 := by
    intro c h
    have hge : 65 ≤ c.toNat := by
      unfold lower at h
      split at h
      · next hr => exact hr.1
      · rcases h with rfl | rfl <;> decide
    refine ⟨?_, ?_, ?_⟩
    · rw [Bool.eq_false_iff]
      intro hs
      rcases (isSpace_iff c).1 hs with rfl | hs
      · revert hge; decide
      · omega
    · rintro rfl
      revert hge; decide
    · rintro rfl
      revert hge; decide
  cases h with
  | dec t u n k e ht hu =>
    obtain ⟨c, v, rfl, hc, _⟩ := number_head ht
    exact ⟨c, v ++ u, rfl, dig c hc⟩
  | hex x t u n k e hx ht hu => exact ⟨48, _, rfl, by decide⟩
  | inf _ h =>
    rcases h with h | h
    · obtain ⟨c, u, rfl, hc, _⟩ := word_cons h
      exact ⟨c, u, rfl, low c (.inl hc)⟩
    · obtain ⟨c, u, rfl, hc, _⟩ := word_cons h
      exact ⟨c, u, rfl, low c (.inl hc)⟩
  | nan _ h =>
    obtain ⟨c, u, rfl, hc, _⟩ := word_cons h
    exact ⟨c, u, rfl, low c (.inr hc)⟩
  | nanBody t b h hb =>
    obtain ⟨c, u, rfl, hc, _⟩ := word_cons h
    exact ⟨c, _, rfl, low c (.inr hc)⟩

theorem dropWhile_blank {ws : List Byte} (hw : ∀ c ∈ ws, c = 32 ∨ (9 ≤ c.toNat ∧ c.toNat ≤ 13)) {c : Byte} {t : List Byte}
    (hc : isSpace c = false) : (ws ++ c :: t).dropWhile isSpace = c :: t := by
  rw [List.dropWhile_append_of_pos (fun x hx => (isSpace_iff x).2 (hw x hx))]
  simp [hc]

theorem strtod_of (lib : CLib) {t : List Byte} {neg : Bool} {l : Lit} (h : Signed t neg l) :
    t ≠ [] ∧ strtod lib t = (toDbl lib neg l, []) := by
  cases h with
  | plain ws b _ hw hb =>
    obtain ⟨c, u, rfl, h1, h2, h3⟩ := const_head hb
    refine ⟨by simp, ?_⟩
    unfold strtod
    rw [dropWhile_blank hw h1]
    have : signed (c :: u) = (false, c :: u) := by
      unfold signed
      split
      · next h => simp at h; exact absurd h.1 h2
      · next h => simp at h; exact absurd h.1 h3
      · rfl
    rw [this]
    simp only [literal_const hb]
  | plus ws b _ hw hb =>
    refine ⟨by simp, ?_⟩
    unfold strtod
    rw [dropWhile_blank hw (by decide)]
    simp only [signed, literal_const hb]
  | minus ws b _ hw hb =>
    refine ⟨by simp, ?_⟩
    unfold strtod
    rw [dropWhile_blank hw (by decide)]
    simp only [signed, literal_const hb]

theorem of_strtod (lib : CLib) {t : List Byte} (hne : t ≠ []) (h : (strtod lib t).2 = []) : ∃ neg l, Signed t neg l := by
  have hw : ∀ c ∈ t.takeWhile isSpace, c = 32 ∨ (9 ≤ c.toNat ∧ c.toNat ≤ 13) := by
    intro c hc
    exact (isSpace_iff c).1 (List.all_eq_true.1 List.all_takeWhile c hc)
  have ht : t = t.takeWhile isSpace ++ t.dropWhile isSpace := List.takeWhile_append_dropWhile.symm
  unfold strtod at h
  generalize t.takeWhile isSpace = ws at hw ht
  generalize t.dropWhile isSpace = b at h ht
  generalize hsg : signed b = sb at h
  obtain ⟨neg, r⟩ := sb
  simp only at h
  split at h
  · next l rest hl =>
    simp only at h
    subst h
    have hc := literal_full hl
    subst ht
    unfold signed at hsg
    split at hsg
    · cases hsg
      exact ⟨_, _, .minus ws _ l hw hc⟩
    · cases hsg
      exact ⟨_, _, .plus ws _ l hw hc⟩
    · cases hsg
      exact ⟨_, _, .plain ws _ l hw hc⟩
  · exact absurd h hne

theorem toDbl_denotes (lib : CLib) (neg : Bool) (l : Lit) : Denotes neg l (toDbl lib neg l) := by
  cases l with
  | inf => rfl
  | nan => rfl
  | num n b e =>
    simp only [Denotes]
    have h0 : (0 : ℚ) ≤ (n : ℚ) * (b : ℚ) ^ e := mul_nonneg (Nat.cast_nonneg n) (zpow_nonneg (Nat.cast_nonneg b) e)
    split
    · next h =>
      obtain ⟨m, k, h1, h2, h3⟩ := lib.near_fin _ h0 h
      exact ⟨m, k, by simp [toDbl, h1], h2, h3⟩
    · next h =>
      simp [toDbl, lib.near_inf _ (not_lt.1 h)]

/-- **C85** (which texts are numbers): `get_double` of a stored text answers 0 and the double the text denotes exactly
when the text is a floating constant of C (decimal or hexadecimal, with point and exponent as one likes, or an infinity
or not-a-number), white space and a sign in front, nothing behind; `-EINVAL` without touching the output otherwise. -/
theorem get_double_text (lib : CLib) (s : St) (hs : Reachable s) (k v : List Byte) (hk : (0 : Byte) ∉ k)
    (hv : (0 : Byte) ∉ v) (ok : Oks) (hg : ok.grow = true) (s' : St) (hadd : addStr s k v ok = some (s', 0)) :
    (∀ neg l, Signed v neg l → ∃ x, getDouble lib s' k = some (some x, 0) ∧ Denotes neg l x) ∧
    ((¬ ∃ neg l, Signed v neg l) → getDouble lib s' k = some (none, -22)) := by
  rw [(get_after lib s hs k v hk hv ok hg s' hadd).1]
  constructor
  · intro neg l h
    obtain ⟨h1, h2⟩ := strtod_of lib h
    refine ⟨_, ?_, toDbl_denotes lib neg l⟩
    rw [if_neg (by simp [h1, h2]), h2]
  · intro hn
    rw [if_pos]
    by_cases hne : v = []
    · exact .inl hne
    · exact .inr fun h => hn (of_strtod lib hne h)

/-- a text is a constant in at most one way -/
theorem signed_unique {t : List Byte} {neg neg' : Bool} {l l' : Lit} (h : Signed t neg l) (h' : Signed t neg' l') (lib : CLib) :
    toDbl lib neg l = toDbl lib neg' l' :=
  congrArg Prod.fst ((strtod_of lib h).2.symm.trans (strtod_of lib h').2)

/-- " -1.5e2" is -150; "1e" is no number, although "1" is -/
theorem demo_text : Signed [32, 45, 49, 46, 53, 101, 50] true (.num 15 10 1) ∧
    ¬ ∃ neg l, Signed [49, 101] neg l := by
  constructor
  · refine .minus [32] [49, 46, 53, 101, 50] _ (by decide) ?_
    exact .dec [49, 46, 53] [101, 50] 15 1 2
      (.point [49] [53] (by simp [isDig]) (by simp [isDig]) (by decide))
      (.plain 101 [50] (.inl rfl) (by simp [isDig]) (by decide))
  · rintro ⟨neg, l, h⟩
    obtain ⟨lib⟩ := lib_exists
    have := congrArg Prod.snd (strtod_of lib h).2
    have h2 : (strtod lib [49, 101]).2 = [101] := rfl
    rw [h2] at this
    cases this

end Verif.StrDouble
