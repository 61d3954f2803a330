import Verif.StrDouble.Read
import Mathlib.Data.Finset.Max
import Mathlib.Order.Interval.Finset.Nat
import Mathlib.Data.Int.Interval
import Mathlib.Data.Finset.Prod
import Mathlib.Tactic.FieldSimp
/-! # C85: numbers with a fraction in `str_params` -/
namespace Verif.StrDouble
open Verif.StrParams Verif.Strings
open Verif.StrParams.Spec (find)
open Verif.Hashmap (Ptr)
open Verif.Hashmap.Spec (FMap)

theorem getDouble_spec (lib : CLib) {s : St} {L : FMap} {X : List Ptr} (g : Good s L X) (k : List Byte) :
    getDouble lib s k = some (match find (texts s.heap L) k with
      | none => (none, -2)
      | some v => if v = [] ∨ (strtod lib v).2 ≠ [] then (none, -22) else (some (strtod lib v).1, 0)) := by
  unfold getDouble
  rcases lookup_spec g k with ⟨h1, h2⟩ | ⟨p, v, h1, h1l, h2, h3, h0, h4⟩
  · rw [h2, h1]; rfl
  · rw [h4, h2]
    obtain ⟨q, rfl⟩ : ∃ q, p = q + 1 := ⟨p - 1, (Nat.succ_pred_eq_of_ne_zero h1).symm⟩
    simp only [readStr]
    rw [if_pos h1l, h3]
    simp only
    split <;> rfl

/-- after a successful `add_str(k, v)`, `get_double` reads the text `v` under `k`; other keys are unchanged -/
theorem get_after (lib : CLib) (s : St) (hs : Reachable s) (k v : List Byte) (hk : (0 : Byte) ∉ k) (hv : (0 : Byte) ∉ v)
    (ok : Oks) (hg : ok.grow = true) (s' : St) (hadd : addStr s k v ok = some (s', 0)) :
    getDouble lib s' k = some (if v = [] ∨ (strtod lib v).2 ≠ [] then (none, -22) else (some (strtod lib v).1, 0)) ∧
    ∀ k', k' ≠ k → getDouble lib s' k' = getDouble lib s k' := by
  obtain ⟨L, g⟩ := reachable_good hs
  obtain ⟨s1, L', r, k1, k2, _, k4⟩ := addStr_spec g k v hk hv ok hg
  rw [hadd] at k1
  simp only [Option.some.injEq, Prod.mk.injEq] at k1
  obtain ⟨e1, e2⟩ := k1
  subst e1; subst e2
  have ht : texts s'.heap L' = Spec.insert (texts s.heap L) k v := by
    simp only [Spec.step] at k4
    split at k4
    · exact congrArg Prod.fst k4
    · have := congrArg Prod.snd k4; simp at this
  constructor
  · rw [getDouble_spec lib k2, ht, find_insert, if_pos rfl]
  · intro k' hne
    rw [getDouble_spec lib k2, getDouble_spec lib g, ht, find_insert, if_neg hne]

theorem take_ne_nil (lib : CLib) (x : Dbl) : (fmtF lib x).take 31 ≠ [] := by
  have : 0 < (fmtF lib x).length := by
    cases x <;> simp [fmtF]
  intro h
  have := congrArg List.length h
  rw [List.length_take] at this
  simp only [List.length_nil] at this
  omega

theorem get_after_add (lib : CLib) (s : St) (hs : Reachable s) (k : List Byte) (hk : (0 : Byte) ∉ k) (x r : Dbl)
    (hr : strtod lib ((fmtF lib x).take 31) = (r, []))
    (ok : Oks) (hg : ok.grow = true) (s' : St) (hadd : addDouble lib s k x ok = some (s', 0)) :
    getDouble lib s' k = some (some r, 0) ∧ ∀ k', k' ≠ k → getDouble lib s' k' = getDouble lib s k' := by
  rw [addDouble_eq lib s k x ok (fmtF_no0 lib x)] at hadd
  obtain ⟨a, b⟩ := get_after lib s hs k _ hk (fun h => fmtF_no0 lib x (List.mem_of_mem_take h)) ok hg s' hadd
  refine ⟨?_, b⟩
  rw [a, hr, if_neg]
  rintro (h | h)
  · exact take_ne_nil lib x h
  · exact h rfl

/-- the nearest double -/
theorem ofMag_near (lib : CLib) (neg : Bool) {q : ℚ} (h0 : 0 ≤ q) (h1 : q < 10 ^ 32) :
    ∃ m e, ofMag lib neg q = .fin neg m e ∧ IsDouble m e ∧ ∀ m' e', IsDouble m' e' → |mag m e - q| ≤ |mag m' e' - q| := by
  have : q < 2 ^ 1024 - 2 ^ 970 := by
    have h2 : (2 : ℚ) ^ 120 ≤ 2 ^ 970 := pow_le_pow_right₀ (by norm_num) (by decide)
    have h3 : (10 : ℚ) ^ 32 < 2 ^ 120 := by norm_num
    have h4 : (2 : ℚ) ≤ 2 ^ 54 := by norm_num
    rw [show (1024 : Nat) = 970 + 54 from rfl, pow_add]
    generalize (2 : ℚ) ^ 970 = y at h2 ⊢
    generalize (2 : ℚ) ^ 54 = z at h4 ⊢
    generalize (2 : ℚ) ^ 120 = w at h2 h3
    generalize (10 : ℚ) ^ 32 = v at h1 h3
    nlinarith
  obtain ⟨m, e, a, b, c⟩ := lib.near_fin q h0 this
  exact ⟨m, e, by simp [ofMag, a], b, c⟩

/-- values of a format with significands below 2^B are on a grid -/
theorem grid {B p : Nat} (hB : 0 < B) {m : Nat} {e : Int} (hm : m < 2 ^ B) (h : 2 ^ (B - 1) ≤ mag m e * 2 ^ p) :
    ∃ k : Nat, mag m e * 2 ^ p = k := by
  have hz : mag m e * 2 ^ p = m * 2 ^ (e + p) := by
    unfold mag
    rw [mul_assoc, zpow_add₀ (by norm_num), zpow_natCast]
  by_cases he : 0 ≤ e + p
  · obtain ⟨k, hk⟩ := Int.eq_ofNat_of_zero_le he
    refine ⟨m * 2 ^ k, ?_⟩
    rw [hz, hk]
    push_cast
    rw [zpow_natCast]
  · exfalso
    have h1 : (2 : ℚ) ^ (e + p) ≤ 2 ^ (-1 : Int) := zpow_le_zpow_right₀ (by norm_num) (by omega)
    have h2 : (m : ℚ) < 2 ^ B := by exact_mod_cast hm
    have h3 : (2 : ℚ) ^ B = 2 * 2 ^ (B - 1) := by
      rw [← pow_succ']
      congr 1
      omega
    have h4 : (0 : ℚ) ≤ m := Nat.cast_nonneg m
    have h5 : (0 : ℚ) < 2 ^ (e + p) := zpow_pos (by norm_num) _
    rw [hz] at h
    norm_num at h1
    nlinarith

/-- two values of a format, one of them above 2^(B-1-p), are at least 2^-p apart -/
theorem apart {B p : Nat} (hB : 0 < B) {m m' : Nat} {e e' : Int} (hm : m < 2 ^ B) (hm' : m' < 2 ^ B)
    (h : 2 ^ (B - 1) < mag m e * 2 ^ p) (hne : mag m' e' ≠ mag m e) : 1 ≤ |mag m' e' - mag m e| * 2 ^ p := by
  obtain ⟨k, hk⟩ := grid hB hm (le_of_lt h)
  have hp : (0 : ℚ) < 2 ^ p := by positivity
  have habs : |mag m' e' - mag m e| * 2 ^ p = |mag m' e' * 2 ^ p - mag m e * 2 ^ p| := by
    rw [← sub_mul, abs_mul, abs_of_pos hp]
  rw [habs]
  rw [hk] at h ⊢
  have hk1 : 2 ^ (B - 1) + 1 ≤ k := by
    have : 2 ^ (B - 1) < k := by exact_mod_cast h
    omega
  by_cases hy : 2 ^ (B - 1) ≤ mag m' e' * 2 ^ p
  · obtain ⟨k', hk'⟩ := grid hB hm' hy
    rw [hk']
    have : k' ≠ k := by
      rintro rfl
      rw [← hk] at hk'
      exact hne (mul_right_cancel₀ (ne_of_gt hp) hk')
    have h1 : (1 : Int) ≤ |(k' : Int) - k| := Int.one_le_abs (by omega)
    have : ((1 : Int) : ℚ) ≤ ((|(k' : Int) - k| : Int) : ℚ) := by exact_mod_cast h1
    push_cast at this
    exact this
  · have h1 : ((2 ^ (B - 1) + 1 : ℕ) : ℚ) ≤ k := by exact_mod_cast hk1
    push_cast at h1
    rw [abs_sub_comm, le_abs]
    left
    push Not at hy
    linarith

/-- finite doubles whose text fits: magnitude below 10^31, negative ones below 10^30 -/
def Fits (neg : Bool) (q : ℚ) : Prop := q < (if neg then 10 ^ 30 else 10 ^ 31)

theorem fits_iff (neg : Bool) (q : ℚ) : Fits neg q ↔ q < 10 ^ (31 - sg neg) := by
  cases neg <;> simp [Fits, sg]

theorem fits_lt {neg : Bool} {q : ℚ} (h : Fits neg q) : q < 10 ^ 31 := by
  cases neg with
  | false => exact h
  | true =>
    have h : q < 10 ^ 30 := h
    have : (10 : ℚ) ^ 30 < 10 ^ 31 := by norm_num
    linarith

/-- what is read back, for a value whose text fits -/
theorem read_back (lib : CLib) (neg : Bool) {m : Nat} {e : Int} (hx : IsDouble m e) (hf : Fits neg (mag m e)) :
    ∃ m' e', strtod lib ((fmtF lib (.fin neg m e)).take 31) = (.fin neg m' e', []) ∧ IsDouble m' e' ∧
      |mag m' e' - mag m e| ≤ 1 / 10 ^ 10 ∧
      ((∃ n : Nat, mag m e * 10 ^ 10 = n) ∨ 2 ^ 19 ≤ mag m e → mag m' e' = mag m e) ∧
      (mag m e * 10 ^ 10 < 1 / 2 → mag m' e' = 0) := by
  obtain ⟨q, q0, a, b, c, d⟩ := read_fits lib neg hx ((fits_iff neg _).1 hf)
  have hlt := fits_lt hf
  have hq : q < 10 ^ 32 := by
    rw [abs_le] at b
    have : (10 : ℚ) ^ 31 + 1 / 2 / 10 ^ 10 < 10 ^ 32 := by norm_num
    linarith [b.2]
  obtain ⟨m', e', h1, h2, h3⟩ := ofMag_near lib neg q0 hq
  have h4 := h3 m e hx
  have near : |mag m' e' - mag m e| ≤ 1 / 10 ^ 10 := by
    have t := abs_sub_le (mag m' e') q (mag m e)
    rw [abs_sub_comm (mag m e) q] at h4
    have : (1 : ℚ) / 2 / 10 ^ 10 + 1 / 2 / 10 ^ 10 = 1 / 10 ^ 10 := by norm_num
    linarith
  have exact1 : (∃ n : Nat, mag m e * 10 ^ 10 = n) → mag m' e' = mag m e := by
    intro hn
    have hqe := c hn
    rw [hqe] at h4
    simp only [sub_self, abs_zero] at h4
    have := abs_eq_zero.1 (le_antisymm h4 (abs_nonneg _))
    linarith
  refine ⟨m', e', by rw [a, h1], h2, near, ?_, ?_⟩
  · rintro (hn | hbig)
    · exact exact1 hn
    · rcases eq_or_lt_of_le hbig with heq | hlt'
      · exact exact1 ⟨2 ^ 19 * 10 ^ 10, by rw [← heq]; norm_num⟩
      · by_contra hne
        have := apart (B := 53) (p := 33) (by decide) hx.1 h2.1 (by norm_num at hlt' ⊢; linarith) hne
        have h5 : (1 : ℚ) / 10 ^ 10 * 2 ^ 33 < 1 := by norm_num
        have h6 : |mag m' e' - mag m e| * 2 ^ 33 ≤ 1 / 10 ^ 10 * 2 ^ 33 := mul_le_mul_of_nonneg_right near (by norm_num)
        linarith
  · intro hs
    have hq0 := d hs
    rw [hq0] at h3
    have h5 := h3 0 0 ⟨by decide, by decide, by decide⟩
    simp only [mag, Nat.cast_zero, zero_mul, sub_self, abs_zero, sub_zero] at h5
    exact abs_eq_zero.1 (le_antisymm h5 (abs_nonneg _))

/-- **C85** (accuracy): after a successful `str_params_add_double(k, x)` with a finite `x` below 10^31 (negative: above
-10^30), `str_params_get_double(k)` succeeds and gives a double of the same sign at most 10^-10 away; other keys are
unchanged. -/
theorem double_near (lib : CLib) (s : St) (hs : Reachable s) (k : List Byte) (hk : (0 : Byte) ∉ k)
    (neg : Bool) (m : Nat) (e : Int) (hx : IsDouble m e) (hf : Fits neg (mag m e))
    (ok : Oks) (hg : ok.grow = true) (s' : St) (hadd : addDouble lib s k (.fin neg m e) ok = some (s', 0)) :
    (∃ m' e', getDouble lib s' k = some (some (.fin neg m' e'), 0) ∧ IsDouble m' e' ∧
      |mag m' e' - mag m e| ≤ 1 / 10 ^ 10) ∧ ∀ k', k' ≠ k → getDouble lib s' k' = getDouble lib s k' := by
  obtain ⟨m', e', a, b, c, _⟩ := read_back lib neg hx hf
  obtain ⟨p, q⟩ := get_after_add lib s hs k hk _ _ a ok hg s' hadd
  exact ⟨⟨m', e', p, b, c⟩, q⟩

/-- **C85** (exactness): the value comes back exactly if it has at most ten decimals, or if it is at least 2^19 in
magnitude (and below the limit). -/
theorem double_exact (lib : CLib) (s : St) (hs : Reachable s) (k : List Byte) (hk : (0 : Byte) ∉ k)
    (neg : Bool) (m : Nat) (e : Int) (hx : IsDouble m e) (hf : Fits neg (mag m e))
    (hd : (∃ n : Nat, mag m e = n / 10 ^ 10) ∨ 2 ^ 19 ≤ mag m e)
    (ok : Oks) (hg : ok.grow = true) (s' : St) (hadd : addDouble lib s k (.fin neg m e) ok = some (s', 0)) :
    ∃ m' e', getDouble lib s' k = some (some (.fin neg m' e'), 0) ∧ mag m' e' = mag m e := by
  obtain ⟨m', e', a, b, c, d, _⟩ := read_back lib neg hx hf
  obtain ⟨p, q⟩ := get_after_add lib s hs k hk _ _ a ok hg s' hadd
  refine ⟨m', e', p, d ?_⟩
  rcases hd with ⟨n, hn⟩ | hd
  · exact .inl ⟨n, by rw [hn]; field_simp⟩
  · exact .inr hd

/-- **C85** (limit): values below half of 10^-10 come back as zero. -/
theorem double_tiny (lib : CLib) (s : St) (hs : Reachable s) (k : List Byte) (hk : (0 : Byte) ∉ k)
    (neg : Bool) (m : Nat) (e : Int) (hx : IsDouble m e) (hd : mag m e < 1 / 2 / 10 ^ 10)
    (ok : Oks) (hg : ok.grow = true) (s' : St) (hadd : addDouble lib s k (.fin neg m e) ok = some (s', 0)) :
    ∃ m' e', getDouble lib s' k = some (some (.fin neg m' e'), 0) ∧ mag m' e' = 0 := by
  have hf : Fits neg (mag m e) := by
    have h1 : (1 : ℚ) / 2 / 10 ^ 10 < 10 ^ 30 := by norm_num
    have h2 : (1 : ℚ) / 2 / 10 ^ 10 < 10 ^ 31 := by norm_num
    cases neg <;> simp only [Fits, Bool.false_eq_true, if_false, if_true] <;> linarith
  obtain ⟨m', e', a, b, c, d, f⟩ := read_back lib neg hx hf
  obtain ⟨p, q⟩ := get_after_add lib s hs k hk _ _ a ok hg s' hadd
  refine ⟨m', e', p, f ?_⟩
  norm_num at hd ⊢
  linarith

/-- **C85, finding**: every finite double from 10^31 on (negative: from 10^30 on) is stored with its last digits cut
off; `get_double` reports success and gives a number at most a fifth of it. -/
theorem double_cut (lib : CLib) (s : St) (hs : Reachable s) (k : List Byte) (hk : (0 : Byte) ∉ k)
    (neg : Bool) (m : Nat) (e : Int) (hx : IsDouble m e) (hf : ¬ Fits neg (mag m e))
    (ok : Oks) (hg : ok.grow = true) (s' : St) (hadd : addDouble lib s k (.fin neg m e) ok = some (s', 0)) :
    ∃ m' e', getDouble lib s' k = some (some (.fin neg m' e'), 0) ∧ mag m' e' ≤ mag m e / 5 ∧ mag m' e' ≠ mag m e := by
  rw [fits_iff] at hf
  obtain ⟨q, q0, a, b, c⟩ := read_cut lib neg hx (not_lt.1 hf)
  have hq : q < 10 ^ 32 := by
    have : (10 : ℚ) ^ 31 < 10 ^ 32 := by norm_num
    linarith
  obtain ⟨m', e', h1, h2, h3⟩ := ofMag_near lib neg (le_of_lt q0) hq
  rw [h1] at a
  obtain ⟨p, _⟩ := get_after_add lib s hs k hk _ _ a ok hg s' hadd
  have h5 := h3 0 0 ⟨by decide, by decide, by decide⟩
  simp only [mag, Nat.cast_zero, zero_mul, zero_sub, abs_neg, abs_of_pos q0] at h5
  rw [abs_le] at h5
  have h6 : mag m' e' ≤ mag m e / 5 := by
    have := h5.2
    simp only [mag] at this b ⊢
    linarith
  refine ⟨m', e', p, h6, ?_⟩
  intro heq
  rw [heq] at h6
  linarith

/-- **C85** (not finite): infinities and not-a-number come back as such, with their sign. -/
theorem double_special (lib : CLib) (s : St) (hs : Reachable s) (k : List Byte) (hk : (0 : Byte) ∉ k) (neg : Bool)
    (x : Dbl) (hx : x = .inf neg ∨ x = .nan neg)
    (ok : Oks) (hg : ok.grow = true) (s' : St) (hadd : addDouble lib s k x ok = some (s', 0)) :
    getDouble lib s' k = some (some x, 0) := by
  refine (get_after_add lib s hs k hk x x ?_ ok hg s' hadd).1
  rcases hx with rfl | rfl <;> cases neg <;> rfl

/-- **C85** (storing): the text stored is the number with ten decimals, cut to 31 characters; with memory available
the call succeeds. -/
theorem add_double_succeeds (lib : CLib) (s : St) (hs : Reachable s) (k : List Byte) (hk : (0 : Byte) ∉ k) (x : Dbl)
    (hsz : s.map.size < 2 ^ 59) : ∃ s', addDouble lib s k x allOk = some (s', 0) := by
  rw [addDouble_eq lib s k x _ (fmtF_no0 lib x)]
  obtain ⟨L, g⟩ := reachable_good hs
  obtain ⟨s1, L', r, k1, _, _, k4⟩ := addStr_spec g k ((fmtF lib x).take 31) hk
    (fun h => fmtF_no0 lib x (List.mem_of_mem_take h)) allOk rfl
  refine ⟨s1, ?_⟩
  rw [k1]
  have hl : (texts s.heap L).length < 2 ^ 59 := by rw [texts_length, ← g.r.size_eq]; exact hsz
  have hm : Spec.memOk (texts s.heap L) k allOk = true := by
    unfold Spec.memOk allOk
    simp only [Bool.and_self, Bool.true_and, Bool.or_eq_true, decide_eq_true_eq]
    exact Or.inr hl
  simp only [Spec.step, hm, if_true] at k4
  have := congrArg Prod.snd k4
  simp only [Spec.Res.code.injEq] at this
  rw [this]

/-- **C85** (absent keys): `get_double` and `get_float` answer `-ENOENT`, touching nothing, exactly when `has_key` says
no. -/
theorem get_double_absent (lib : CLib) (s : St) (hs : Reachable s) (k : List Byte) :
    (hasKey s k = some false ↔ getDouble lib s k = some (none, -2)) ∧
    (hasKey s k = some false ↔ getFloat lib s k = some (none, -2)) := by
  obtain ⟨L, g⟩ := reachable_good hs
  have hl := lookup_spec g k
  have h1 : getDouble lib s k = some (none, -2) ↔ hasKey s k = some false := by
    rw [getDouble_spec lib g k]
    unfold hasKey
    rcases hl with ⟨h1, h2⟩ | ⟨p, v, h1, _, h2, _, _, h4⟩
    · rw [h2, h1]; simp
    · rw [h4, h2]
      simp only [Option.map_some]
      constructor
      · intro h
        split at h <;> simp at h
      · intro h; simp [h1] at h
  refine ⟨h1.symm, h1.symm.trans ?_⟩
  unfold getFloat
  rw [getDouble_spec lib g k]
  simp only [Option.map_some, Option.some.injEq]
  generalize (match find (texts s.heap L) k with
      | none => (none, -2)
      | some v => if v = [] ∨ (strtod lib v).2 ≠ [] then (none, -22) else (some (strtod lib v).1, 0) : Option Dbl × Int) = r
  obtain ⟨a, b⟩ := r
  cases a <;> simp

/-! ## `float` -/

theorem float_double {m : Nat} {e : Int} (h : IsFloat m e) : IsDouble m e :=
  ⟨by have := h.1; omega, by have := h.2.1; omega, by have := h.2.2; omega⟩

/-- **C85** (`float`): after a successful `str_params_add_float(k, x)` with a finite `x` below the limit,
`str_params_get_float(k)` gives a `float` of the same sign at most 2·10^-10 away, and exactly `x` if its magnitude is
at least 2^-9 or it has at most ten decimals. -/
theorem float_round_trip (lib : CLib) (s : St) (hs : Reachable s) (k : List Byte) (hk : (0 : Byte) ∉ k)
    (neg : Bool) (m : Nat) (e : Int) (hx : IsFloat m e) (hf : Fits neg (mag m e))
    (ok : Oks) (hg : ok.grow = true) (s' : St) (hadd : addFloat lib s k (.fin neg m e) ok = some (s', 0)) :
    ∃ m' e', getFloat lib s' k = some (some (.fin neg m' e'), 0) ∧ IsFloat m' e' ∧
      |mag m' e' - mag m e| ≤ 2 / 10 ^ 10 ∧
      ((∃ n : Nat, mag m e = n / 10 ^ 10) ∨ 1 / 2 ^ 9 ≤ mag m e → mag m' e' = mag m e) := by
  obtain ⟨md, ed, a, b, c, d, _⟩ := read_back lib neg (float_double hx) hf
  obtain ⟨p, _⟩ := get_after_add lib s hs k hk _ _ a ok hg s' hadd
  have hlt := fits_lt hf
  have hb : mag md ed < 2 ^ 128 - 2 ^ 103 := by
    rw [abs_le] at c
    have : (10 : ℚ) ^ 31 + 1 / 10 ^ 10 < 2 ^ 128 - 2 ^ 103 := by norm_num
    linarith [c.2]
  obtain ⟨m', e', h1, h2, h3⟩ := lib.nearF_fin _ (mag_nonneg md ed) hb
  have h4 := h3 m e hx
  have near : |mag m' e' - mag m e| ≤ 2 / 10 ^ 10 := by
    have t := abs_sub_le (mag m' e') (mag md ed) (mag m e)
    rw [abs_sub_comm (mag m e) (mag md ed)] at h4
    have : (1 : ℚ) / 10 ^ 10 + 1 / 10 ^ 10 = 2 / 10 ^ 10 := by norm_num
    linarith
  have exact1 : mag md ed = mag m e → mag m' e' = mag m e := by
    intro heq
    rw [heq] at h4
    simp only [sub_self, abs_zero] at h4
    have := abs_eq_zero.1 (le_antisymm h4 (abs_nonneg _))
    linarith
  refine ⟨m', e', by simp [getFloat, p, toFloat, h1], h2, near, ?_⟩
  rintro (⟨n, hn⟩ | hbig)
  · exact exact1 (d (.inl ⟨n, by rw [hn]; field_simp⟩))
  · rcases eq_or_lt_of_le hbig with heq | hlt'
    · exact exact1 (d (.inl ⟨19531250, by rw [← heq]; norm_num⟩))
    · by_contra hne
      have := apart (B := 24) (p := 32) (by decide) hx.1 h2.1 (by norm_num at hlt' ⊢; linarith) hne
      have h5 : (2 : ℚ) / 10 ^ 10 * 2 ^ 32 < 1 := by norm_num
      have h6 : |mag m' e' - mag m e| * 2 ^ 32 ≤ 2 / 10 ^ 10 * 2 ^ 32 := mul_le_mul_of_nonneg_right near (by norm_num)
      linarith

/-! ## The contract of the C library can be met -/

theorem exists_nearest (B : Nat) (lo hi : Int) (h : lo ≤ hi) (q : ℚ) :
    ∃ x : Nat × Int, (x.1 < 2 ^ B ∧ lo ≤ x.2 ∧ x.2 ≤ hi) ∧
      ∀ m' e', (m' < 2 ^ B ∧ lo ≤ e' ∧ e' ≤ hi) → |mag x.1 x.2 - q| ≤ |mag m' e' - q| := by
  obtain ⟨x, hx, hmin⟩ := Finset.exists_min_image (Finset.range (2 ^ B) ×ˢ Finset.Icc lo hi)
    (fun x => |mag x.1 x.2 - q|) ⟨(0, lo), by simp [h]⟩
  rw [Finset.mem_product, Finset.mem_range, Finset.mem_Icc] at hx
  refine ⟨x, hx, fun m' e' h' => hmin (m', e') ?_⟩
  rw [Finset.mem_product, Finset.mem_range, Finset.mem_Icc]
  exact h'

/-- the assumptions about the C library are consistent -/
theorem lib_exists : Nonempty CLib := by
  classical
  refine ⟨{
    round := fun q => ⌊q + 1 / 2⌋₊
    round_near := ?_
    near := fun q => if q < 2 ^ 1024 - 2 ^ 970 then some (Classical.choose (exists_nearest 53 (-1074) 971 (by decide) q)) else none
    near_fin := ?_
    near_inf := ?_
    nearF := fun q => if q < 2 ^ 128 - 2 ^ 103 then some (Classical.choose (exists_nearest 24 (-149) 104 (by decide) q)) else none
    nearF_fin := ?_
    nearF_inf := ?_ }⟩
  · intro q h0
    have h1 := Nat.floor_le (a := q + 1 / 2) (by linarith)
    have h2 := Nat.lt_floor_add_one (q + 1 / 2)
    rw [abs_le]
    constructor <;> linarith
  · intro q h0 h
    rw [if_pos h]
    have := Classical.choose_spec (exists_nearest 53 (-1074) 971 (by decide) q)
    exact ⟨_, _, rfl, this.1, this.2⟩
  · intro q h
    rw [if_neg (not_lt.2 h)]
  · intro q h0 h
    rw [if_pos h]
    have := Classical.choose_spec (exists_nearest 24 (-149) 104 (by decide) q)
    exact ⟨_, _, rfl, this.1, this.2⟩
  · intro q h
    rw [if_neg (not_lt.2 h)]

/-- the hypotheses of the theorems are met: 0.1 (not exact), 2.5, the least double above 10^31, which is not below the
limit -/
theorem demo_values : IsDouble 3602879701896397 (-55) ∧ Fits true (mag 3602879701896397 (-55)) ∧
    IsDouble 5 (-1) ∧ mag 5 (-1) = ((25000000000 : ℕ) : ℚ) / 10 ^ 10 ∧
    IsDouble 8881784197001253 50 ∧ ¬ Fits false (mag 8881784197001253 50) := by
  refine ⟨⟨by decide, by decide, by decide⟩, ?_, ⟨by decide, by decide, by decide⟩, ?_, ⟨by decide, by decide, by decide⟩, ?_⟩
  · simp only [Fits, mag]; norm_num
  · simp only [mag]; norm_num
  · simp only [Fits, mag]; norm_num

end Verif.StrDouble
