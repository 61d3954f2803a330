import Verif.StrDouble.Model
/-! # The printed text, cut to 31 characters, and how `strtod` reads it -/
namespace Verif.StrDouble
open Verif.StrParams Verif.Strings

def isDigit (c : Byte) : Prop := 48 ≤ c.toNat ∧ c.toNat ≤ 57

/-- value of a list of digits, after `acc` -/
def val (acc : Nat) (l : List Byte) : Nat := l.foldl (fun a c => a * 10 + (c.toNat - 48)) acc

theorem val_acc (l : List Byte) : ∀ acc, val acc l = acc * 10 ^ l.length + val 0 l := by
  induction l with
  | nil => intro acc; simp [val]
  | cons c l ih =>
    intro acc
    have h1 := ih (acc * 10 + (c.toNat - 48))
    have h2 := ih (0 * 10 + (c.toNat - 48))
    simp only [val, List.foldl_cons] at h1 h2 ⊢
    rw [h1, h2]
    simp only [List.length_cons, Nat.pow_succ, Nat.zero_mul, Nat.zero_add]
    rw [Nat.add_mul, Nat.mul_assoc, Nat.mul_comm 10, Nat.add_assoc]

theorem val_append (acc : Nat) (l r : List Byte) : val acc (l ++ r) = val (val acc l) r := by
  simp [val]

theorem digitByte (d : Nat) (h : d < 10) : (UInt8.ofNat (48 + d)).toNat = 48 + d := by
  simp only [UInt8.toNat_ofNat']
  omega

theorem fracText_length (k : Nat) : ∀ n, (fracText k n).length = k := by
  induction k with
  | zero => intro n; rfl
  | succ k ih => intro n; simp [fracText, ih]

theorem fracText_digit (k : Nat) : ∀ n, ∀ c ∈ fracText k n, isDigit c := by
  induction k with
  | zero => intro n c h; simp [fracText] at h
  | succ k ih =>
    intro n c h
    simp only [fracText, List.mem_append, List.mem_singleton] at h
    rcases h with h | rfl
    · exact ih _ _ h
    · have := digitByte (n % 10) (by omega)
      unfold isDigit
      omega

theorem fracText_val (k : Nat) : ∀ n, n < 10 ^ k → val 0 (fracText k n) = n := by
  induction k with
  | zero => intro n h; simp at h; subst h; rfl
  | succ k ih =>
    intro n h
    simp only [fracText, val_append]
    rw [ih (n / 10) (by rw [Nat.pow_succ] at h; omega)]
    have := digitByte (n % 10) (by omega)
    simp only [val, List.foldl_cons, List.foldl_nil, this]
    omega

theorem fracText_zero (k : Nat) : fracText k 0 = List.replicate k 48 := by
  induction k with
  | zero => rfl
  | succ k ih => simp [fracText, ih, List.replicate_succ']

theorem digitVal_digit {c : Byte} (h : isDigit c) : digitVal c = some (c.toNat - 48) := digitVal_dec h

theorem scan_digits (l r : List Byte) (hl : ∀ c ∈ l, isDigit c)
    (hr : ∀ c t, r = c :: t → ∀ d, digitVal c = some d → ¬ d < 10) :
    ∀ acc cnt, scan 10 acc cnt (l ++ r) = (val acc l, cnt + l.length, r) := by
  induction l with
  | nil =>
    intro acc cnt
    cases r with
    | nil => rfl
    | cons c t =>
      simp only [List.nil_append, scan, val, List.foldl_nil, List.length_nil, Nat.add_zero]
      cases h : digitVal c with
      | none => rfl
      | some d => simp only [if_neg (hr c t rfl d h)]
  | cons c l ih =>
    intro acc cnt
    have hc := hl c (List.mem_cons_self ..)
    have : c.toNat - 48 < 10 := by have := hc.2; omega
    simp only [List.cons_append, scan, digitVal_digit hc]
    rw [if_pos this, ih (fun x hx => hl x (List.mem_cons_of_mem _ hx))]
    simp only [val, List.foldl_cons, List.length_cons]
    congr 2
    omega

theorem digitVal_dot : digitVal 46 = none := by decide

/-- digits alone -/
theorem mantissa_int (l : List Byte) (hl : ∀ c ∈ l, isDigit c) (hne : l ≠ []) :
    mantissa 10 l = some (val 0 l, 0, []) := by
  have h := scan_digits l [] hl (by simp) 0 0
  rw [List.append_nil] at h
  have : 0 < l.length := List.length_pos_iff.2 hne
  unfold mantissa
  rw [h]
  simp only [Nat.zero_add]
  rw [if_neg (by omega)]

/-- digits, point, digits -/
theorem mantissa_point (l f : List Byte) (hl : ∀ c ∈ l, isDigit c) (hf : ∀ c ∈ f, isDigit c) (hne : l ≠ []) :
    mantissa 10 (l ++ 46 :: f) = some (val 0 (l ++ f), f.length, []) := by
  have h := scan_digits l (46 :: f) hl (by
    intro c t h d hd
    cases h
    rw [digitVal_dot] at hd
    cases hd) 0 0
  have h' := scan_digits f [] hf (by simp) (val 0 l) 0
  rw [List.append_nil] at h'
  have : 0 < l.length := List.length_pos_iff.2 hne
  unfold mantissa
  rw [h]
  simp only [h', Nat.zero_add]
  rw [if_neg (by omega), val_append]

/-- a text starting with a digit is not a word and not hexadecimal when its second character is not an x -/
theorem literal_dec {c : Byte} {t : List Byte} (hc : isDigit c) (ht : ∀ d u, t = d :: u → lower d ≠ 120)
    {n k : Nat} (h : mantissa 10 (c :: t) = some (n, k, [])) :
    literal (c :: t) = some (.num n 10 (-(k : Int)), []) := by
  have lc : lower c = c := by
    unfold lower
    rw [if_neg]
    have := hc.2
    omega
  have no : ∀ w (x : Byte) (v : List Byte), w = x :: v → ¬ isDigit x → starts w (c :: t) = false := by
    intro w x v hw hx
    subst hw
    unfold starts
    rw [decide_eq_false_iff_not]
    rintro ⟨_, h⟩
    simp only [List.length_cons, List.take_succ_cons, List.map_cons, List.cons.injEq, lc] at h
    exact hx (h.1 ▸ hc)
  have hex : starts [48, 120] (c :: t) = false := by
    unfold starts
    rw [decide_eq_false_iff_not]
    rintro ⟨_, h⟩
    cases t with
    | nil => simp at h
    | cons d u =>
      simp only [List.length_cons, List.length_nil, List.take_succ_cons, List.map_cons, List.cons.injEq] at h
      exact ht d u rfl h.2.1
  unfold literal
  rw [no _ 105 _ rfl (by unfold isDigit; decide), no _ 105 _ rfl (by unfold isDigit; decide),
    no _ 110 _ rfl (by unfold isDigit; decide), hex]
  simp only [Bool.false_eq_true, if_false, h, exponent]
  congr 3
  omega

theorem isSpace_digit {c : Byte} (h : isDigit c) : isSpace c = false := by
  have : c ≠ 32 := by
    rintro rfl
    have := h.1
    revert this; decide
  unfold isSpace
  simp only [this, false_or, decide_eq_false_iff_not]
  have := h.1
  omega

theorem strtod_signed (lib : CLib) (neg : Bool) {c : Byte} {t : List Byte} (hc : isDigit c) {l : Lit}
    (h : literal (c :: t) = some (l, [])) : strtod lib (signText neg ++ c :: t) = (toDbl lib neg l, []) := by
  have h45 : c ≠ 45 := by
    rintro rfl
    have := hc.1
    revert this; decide
  have h43 : c ≠ 43 := by
    rintro rfl
    have := hc.1
    revert this; decide
  unfold strtod
  cases neg with
  | true =>
    have : (signText true ++ c :: t).dropWhile isSpace = 45 :: c :: t := by
      simp [signText, isSpace]
    rw [this]
    simp only [signed, h]
  | false =>
    have : (signText false ++ c :: t).dropWhile isSpace = c :: t := by
      simp [signText, isSpace_digit hc]
    rw [this]
    have : signed (c :: t) = (false, c :: t) := by
      unfold signed
      split
      · next h => simp at h; exact absurd h.1 h45
      · next h => simp at h; exact absurd h.1 h43
      · rfl
    rw [this]
    simp only [h]

theorem lower_digit {c : Byte} (h : isDigit c) : lower c ≠ 120 := by
  have : lower c = c := by
    unfold lower
    rw [if_neg]
    have := h.2
    omega
  rw [this]
  rintro rfl
  have := h.2
  revert this; decide

/-- reading sign, digits, point, digits -/
theorem strtod_point (lib : CLib) (neg : Bool) (l f : List Byte) (hl : ∀ c ∈ l, isDigit c) (hf : ∀ c ∈ f, isDigit c)
    (hne : l ≠ []) :
    strtod lib (signText neg ++ (l ++ 46 :: f)) = (toDbl lib neg (.num (val 0 (l ++ f)) 10 (-(f.length : Int))), []) := by
  obtain ⟨c, t, rfl⟩ := List.exists_cons_of_ne_nil hne
  have hc := hl c (List.mem_cons_self ..)
  refine strtod_signed lib neg hc (literal_dec hc ?_ (mantissa_point (c :: t) f hl hf hne))
  intro d u h
  cases t with
  | nil =>
    have h : (46 : Byte) :: f = d :: u := h
    cases h
    decide
  | cons d' u' =>
    have h : d' :: (u' ++ 46 :: f) = d :: u := h
    cases h
    exact lower_digit (hl _ (by simp))

/-- reading sign and digits -/
theorem strtod_int (lib : CLib) (neg : Bool) (l : List Byte) (hl : ∀ c ∈ l, isDigit c) (hne : l ≠ []) :
    strtod lib (signText neg ++ l) = (toDbl lib neg (.num (val 0 l) 10 0), []) := by
  obtain ⟨c, t, rfl⟩ := List.exists_cons_of_ne_nil hne
  have hc := hl c (List.mem_cons_self ..)
  refine strtod_signed lib neg hc ?_
  have := literal_dec hc ?_ (mantissa_int (c :: t) hl hne)
  · exact this
  · intro d u h
    subst h
    exact lower_digit (hl d (by simp))

/-- the front of a decimal text is the text of the quotient -/
theorem decText_take (t : Nat) : ∀ n, t < (decText n).length →
    (decText n).take ((decText n).length - t) = decText (n / 10 ^ t) := by
  induction t with
  | zero => intro n _; simp
  | succ t ih =>
    intro n h
    by_cases hn : n < 10
    · rw [decText_lt hn] at h
      simp at h
    · have h1 := decText_ge (n := n) (by omega)
      rw [h1] at h ⊢
      simp only [List.length_append, List.length_cons, List.length_nil] at h ⊢
      rw [List.take_append_of_le_length (by omega), show (decText (n / 10)).length + 1 - (t + 1) = (decText (n / 10)).length - t by omega,
        ih (n / 10) (by omega), Nat.div_div_eq_div_mul, Nat.pow_succ, Nat.mul_comm]

/-- the C string left in the buffer -/
theorem addDouble_eq (lib : CLib) (s : St) (key : List Byte) (x : Dbl) (ok : Oks) (h0 : (0 : Byte) ∉ fmtF lib x) :
    addDouble lib s key x ok = addStr s key ((fmtF lib x).take 31) ok := by
  unfold addDouble Mem.snprintf
  rw [if_neg (by decide)]
  have hl : ((fmtF lib x).take 31).length ≤ 31 := by simp
  have h0' : (0 : Byte) ∉ (fmtF lib x).take 31 := fun h => h0 (List.mem_of_mem_take h)
  generalize hw : (fmtF lib x).take 31 = w at hl h0'
  have hst : Mem.store (List.replicate 32 0) 0 (w ++ [0]) =
      some (w ++ 0 :: (List.replicate 32 (0 : Byte)).drop (w.length + 1)) := by
    unfold Mem.store
    rw [if_pos (by simp; omega)]
    simp
  simp only [hst, Option.map_some]
  rw [Mem.cstr_zero h0']

theorem digit_ne0 {c : Byte} (h : isDigit c) : c ≠ 0 := by
  rintro rfl
  have := h.1
  revert this; decide

theorem fmtF_no0 (lib : CLib) (x : Dbl) : (0 : Byte) ∉ fmtF lib x := by
  have hs : ∀ neg, (0 : Byte) ∉ signText neg := by intro neg; cases neg <;> simp [signText]
  cases x with
  | inf neg => simp [fmtF, hs]
  | nan neg => simp [fmtF, hs]
  | fin neg m e =>
    simp only [fmtF, List.mem_append, not_or, List.mem_singleton]
    exact ⟨⟨⟨hs neg, decText_no0 _⟩, by decide⟩, fun h => digit_ne0 (fracText_digit _ _ _ h) rfl⟩

end Verif.StrDouble
