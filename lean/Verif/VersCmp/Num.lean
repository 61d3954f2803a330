import Verif.VersCmp.Props
import Verif.Common.Dec

/-! # Numbers inside names are compared by their value -/
namespace Verif.VersCmp
open Spec Strings

theorem cmp_append (table : State → Cls → Cls → Res) : ∀ (p : List Byte) (st : State) (s t : List Byte),
    cmp table st (p ++ s) (p ++ t) = cmp table (after st p) s t
  | [], _, _, _ => rfl
  | c :: p, st, s, t => by
    simp only [List.cons_append, cmp, if_true]
    rw [cmp_append table p]; rfl

/-- The number a list of digits stands for. -/
def val (s : List Byte) : Nat := s.foldl (fun a c => a * 10 + (c.toNat - 48)) 0

theorem fold_acc : ∀ (s : List Byte) (a : Nat), s.foldl (fun a c => a * 10 + (c.toNat - 48)) a = a * 10 ^ s.length + val s
  | [], a => by simp [val]
  | c :: s, a => by
    have e : val (c :: s) = (0 * 10 + (c.toNat - 48)) * 10 ^ s.length + val s := by
      show (c :: s).foldl _ 0 = _
      rw [List.foldl_cons, fold_acc s]
    rw [List.foldl_cons, fold_acc s, e, List.length_cons, Nat.pow_succ]
    grind

theorem val_cons (c : Byte) (s : List Byte) : val (c :: s) = (c.toNat - 48) * 10 ^ s.length + val s := by
  rw [val, List.foldl_cons, fold_acc]; simp

theorem val_lt : ∀ (s : List Byte), (∀ c ∈ s, isDig c = true) → val s < 10 ^ s.length
  | [], _ => by simp [val]
  | c :: s, h => by
    have := val_lt s fun c hc => h c (by simp [hc])
    have hc := (isDig_nat c).1 (h c (by simp))
    rw [val_cons, List.length_cons, Nat.pow_succ]
    have h9 : c.toNat - 48 ≤ 9 := by omega
    have := Nat.mul_le_mul_right (10 ^ s.length) h9
    omega

theorem run_digits : ∀ {w x : List Byte}, (∀ c ∈ w, isDig c = true) → isDig (hd x) = false → run (w ++ x) = w.length
  | [], x, _, h => by simpa using run_zero h
  | c :: w, x, hw, h => by
    have := run_digits (w := w) (x := x) (fun c hc => hw c (by simp [hc])) h
    have hc := hw c (by simp)
    simp only [run, List.cons_append, List.takeWhile_cons, hc, if_true, List.length_cons] at this ⊢
    rw [this]

theorem decide_digits {st : State} {c d : Byte} {s t : List Byte} (hst : st = .N ∧ c ≠ 48 ∧ d ≠ 48 ∨ st = .I) (hc : isDig c = true) (hd' : isDig d = true) :
    Spec.decide here st (c :: s) (d :: t) = (compare (run (c :: s)) (run (d :: t))).then (compare c.toNat d.toNat) := by
  have k1 := isDig_iff.1 hc
  have k2 := isDig_iff.1 hd'
  rcases hst with ⟨rfl, hc0, hd0⟩ | rfl
  · have e1 : cls c = .d := by
      unfold cls; rw [if_neg hc0, if_pos]
      have := (isDig_nat c).1 hc
      have h0 : c.toNat ≠ 48 := fun e => hc0 (byte_toNat_inj e)
      exact ⟨byte_le.2 (by show 49 ≤ c.toNat; omega), byte_le.2 (by show c.toNat ≤ 57; omega)⟩
    have e2 : cls d = .d := by
      unfold cls; rw [if_neg hd0, if_pos]
      have := (isDig_nat d).1 hd'
      have h0 : d.toNat ≠ 48 := fun e => hd0 (byte_toNat_inj e)
      exact ⟨byte_le.2 (by show 49 ≤ d.toNat; omega), byte_le.2 (by show d.toNat ≤ 57; omega)⟩
    simp only [Spec.decide, hd, List.headD_cons, e1, e2, here, gnu]
  · simp only [Spec.decide, hd, List.headD_cons]
    cases h1 : cls c <;> cases h2 : cls d <;> simp_all [here, gnu]

/-- Numbers of the same length. -/
theorem cmp_same {x y : List Byte} (hx : isDig (hd x) = false) (hy : isDig (hd y) = false) : ∀ (u v : List Byte), u.length = v.length →
    (∀ c ∈ u, isDig c = true) → (∀ c ∈ v, isDig c = true) → val u < val v → cmp here .I (u ++ x) (v ++ y) = .lt
  | [], [], _, _, _, h => by simp [val] at h
  | c :: u, d :: v, hl, hu, hv, h => by
    have hc := hu c (by simp)
    have hd' := hv d (by simp)
    have hu' : ∀ c ∈ u, isDig c = true := fun c hc => hu c (by simp [hc])
    have hv' : ∀ c ∈ v, isDig c = true := fun c hc => hv c (by simp [hc])
    have hl' : u.length = v.length := by simpa using hl
    rw [val_cons, val_cons, hl'] at h
    simp only [List.cons_append, cmp]
    by_cases e : c = d
    · subst e
      rw [if_pos rfl]
      have : next .I (cls c) = .I := by have := isDig_iff.1 hc; cases hk : cls c <;> simp_all [next]
      rw [this]
      exact cmp_same hx hy u v hl' hu' hv' (by omega)
    · rw [if_neg e, decide_digits (.inr rfl) hc hd']
      rw [← List.cons_append, ← List.cons_append, run_digits hu hx, run_digits hv hy, hl, Nat.compare_eq_eq.2 rfl]
      refine Nat.compare_eq_lt.2 ?_
      have l1 := val_lt u hu'
      have l2 := val_lt v hv'
      rw [hl'] at l1
      have n1 := (isDig_nat c).1 hc
      have n2 := (isDig_nat d).1 hd'
      apply Nat.lt_of_not_le
      intro hge
      have hne : c.toNat ≠ d.toNat := fun e' => e (byte_toNat_inj e')
      have hle : d.toNat - 48 + 1 ≤ c.toNat - 48 := by omega
      have := Nat.mul_le_mul_right (10 ^ v.length) hle
      rw [Nat.add_mul, Nat.one_mul] at this
      omega

theorem decText_isDig (n : Nat) : ∀ c ∈ decText n, isDig c = true := fun c hc => (isDig_nat c).2 (decText_digit n c hc)

theorem cmp_numbers {n m : Nat} (h : n < m) {x y : List Byte} (hx : isDig (hd x) = false) (hy : isDig (hd y) = false) :
    cmp here .N (decText n ++ x) (decText m ++ y) = .lt := by
  have vn : val (decText n) = n := decText_value n
  have vm : val (decText m) = m := decText_value m
  have dn := decText_isDig n
  have dm := decText_isDig m
  obtain ⟨d, v, ed, hd0⟩ := decText_head m (by omega)
  rw [ed] at vm dm ⊢
  rcases Nat.eq_zero_or_pos n with rfl | hn
  · have : decText 0 = [48] := rfl
    rw [this]
    have n2 := (isDig_nat d).1 (dm d (by simp))
    have h0 : d.toNat ≠ 48 := fun e => hd0 (byte_toNat_inj e)
    have e2 : cls d = .d := by
      unfold cls; rw [if_neg hd0, if_pos]
      exact ⟨byte_le.2 (by show 49 ≤ d.toNat; omega), byte_le.2 (by show d.toNat ≤ 57; omega)⟩
    have e1 : cls 48 = .z := rfl
    simp only [List.cons_append, cmp]
    rw [if_neg (Ne.symm hd0)]
    simp only [Spec.decide, hd, List.headD_cons, e1, e2, here, gnu]
    exact Nat.compare_eq_lt.2 (by show 48 < d.toNat; omega)
  · obtain ⟨c, u, ec, hc0⟩ := decText_head n hn
    rw [ec] at vn dn ⊢
    have hc := dn c (by simp)
    have hd' := dm d (by simp)
    have hu' : ∀ c ∈ u, isDig c = true := fun c hc => dn c (by simp [hc])
    have hv' : ∀ c ∈ v, isDig c = true := fun c hc => dm c (by simp [hc])
    have lu := val_lt u hu'
    have lv := val_lt v hv'
    have n1 := (isDig_nat c).1 hc
    have n2 := (isDig_nat d).1 hd'
    have hcn : c.toNat ≠ 48 := fun e => hc0 (byte_toNat_inj e)
    have hdn : d.toNat ≠ 48 := fun e => hd0 (byte_toNat_inj e)
    -- more digits, more
    have hlen : u.length ≤ v.length := by
      apply Nat.le_of_not_lt
      intro hlt
      have a := val_lt _ dm
      have b : 10 ^ u.length ≤ n := by
        rw [← vn, val_cons]
        have := Nat.mul_le_mul_right (10 ^ u.length) (show 1 ≤ c.toNat - 48 by omega)
        omega
      have e : 10 ^ (v.length + 1) ≤ 10 ^ u.length := Nat.pow_le_pow_right (by decide) hlt
      rw [vm, List.length_cons] at a
      omega
    by_cases hl : u.length = v.length
    · by_cases e : c = d
      · subst e
        simp only [List.cons_append, cmp, if_true]
        have : next .N (cls c) = .I := by
          have k0 : cls c ≠ .z := fun hk => by
            unfold cls at hk; rw [if_neg hc0] at hk; split at hk <;> cases hk
          have k1 := isDig_iff.1 hc
          cases hk : cls c
          · exact absurd hk k1
          · rfl
          · exact absurd hk k0
        rw [this]
        refine cmp_same hx hy u v hl hu' hv' ?_
        rw [← vn, ← vm, val_cons, val_cons, hl] at h
        omega
      · simp only [List.cons_append, cmp]
        rw [if_neg e, decide_digits (.inl ⟨rfl, hc0, hd0⟩) hc hd', ← List.cons_append, ← List.cons_append, run_digits dn hx, run_digits dm hy,
          List.length_cons, List.length_cons, hl, Nat.compare_eq_eq.2 rfl]
        refine Nat.compare_eq_lt.2 (Nat.lt_of_not_le fun hge => ?_)
        rw [← vn, ← vm, val_cons, val_cons, hl] at h
        have hne : c.toNat ≠ d.toNat := fun e' => e (byte_toNat_inj e')
        have := Nat.mul_le_mul_right (10 ^ v.length) (show d.toNat - 48 + 1 ≤ c.toNat - 48 by omega)
        rw [Nat.add_mul, Nat.one_mul] at this
        omega
    · by_cases e : c = d
      · subst e
        simp only [List.cons_append, cmp, if_true]
        have : next .N (cls c) = .I := by
          have k0 : cls c ≠ .z := fun hk => by
            unfold cls at hk; rw [if_neg hc0] at hk; split at hk <;> cases hk
          have k1 := isDig_iff.1 hc
          cases hk : cls c
          · exact absurd hk k1
          · rfl
          · exact absurd hk k0
        rw [this, run_decides]
        · rw [run_digits hu' hx, run_digits hv' hy]; exact Nat.compare_eq_lt.2 (by omega)
        · rw [run_digits hu' hx, run_digits hv' hy]; exact hl
      · simp only [List.cons_append, cmp]
        rw [if_neg e, decide_digits (.inl ⟨rfl, hc0, hd0⟩) hc hd', ← List.cons_append, ← List.cons_append, run_digits dn hx, run_digits dm hy,
          List.length_cons, List.length_cons, Nat.compare_eq_lt.2 (by omega)]
        rfl

/-- **C80** (numbers): two names that are equal up to a number (written without leading zeros) are sorted by the number, whatever follows it. -/
theorem numbers_by_value {n m : Nat} (h : n < m) {p x y r1 r2 : List Byte} (hp : ∀ c, p.getLast? = some c → ¬ (48 ≤ c ∧ c ≤ 57))
    (hx : ∀ c, x.head? = some c → ¬ (48 ≤ c ∧ c ≤ 57)) (hy : ∀ c, y.head? = some c → ¬ (48 ≤ c ∧ c ≤ 57))
    (ax : ∀ c ∈ p ++ x ++ y, 0 < c ∧ c < 128) :
    ∃ r, strverscmp (p ++ decText n ++ x ++ 0 :: r1) (p ++ decText m ++ y ++ 0 :: r2) = some r ∧ r < 0 := by
  have nodig : ∀ {z : List Byte}, (∀ c, z.head? = some c → ¬ (48 ≤ c ∧ c ≤ 57)) → isDig (hd z) = false := by
    intro z hz
    cases z with
    | nil => decide
    | cons c z => simpa [isDig, hd] using hz c rfl
  have hN : after .N p = .N := by
    apply after_q
    rcases snocInd (P := fun p => p = [] ∨ ∃ q c, p = q ++ [c]) (.inl rfl) (fun l c _ => .inr ⟨l, c, rfl⟩) p with rfl | ⟨q, c, rfl⟩
    · exact .inl rfl
    · refine .inr ⟨q, c, rfl, ?_⟩
      simpa [isDig] using hp c (by simp)
  have str : ∀ (k : Nat) (z : List Byte), (∀ c ∈ z, 0 < c ∧ c < 128) → ∀ r, Str (p ++ decText k ++ z ++ 0 :: r) (p ++ decText k ++ z) := by
    intro k z hz r
    have hpp : ∀ c ∈ p, 0 < c ∧ c < 128 := fun c hc => ax c (by simp [hc])
    refine ⟨⟨r, rfl⟩, ?_, ?_⟩
    · simp only [List.mem_append, not_or]
      exact ⟨⟨fun h => absurd (hpp 0 h).1 (by decide), decText_no0 k⟩, fun h => absurd (hz 0 h).1 (by decide)⟩
    · intro c hc
      simp only [List.mem_append] at hc
      rcases hc with (hc | hc) | hc
      · exact (hpp c hc).2
      · have := decText_digit k c hc
        exact byte_lt.2 (by show c.toNat < 128; omega)
      · exact (hz c hc).2
  obtain ⟨r, hr, hs⟩ := str_spec (str n x (fun c hc => ax c (by simp [hc])) r1) (str m y (fun c hc => ax c (by simp [hc])) r2)
  refine ⟨r, hr, sign_lt.1 ?_⟩
  rw [hs, List.append_assoc, List.append_assoc, cmp_append, hN]
  exact cmp_numbers h (nodig hx) (nodig hy)

/-- `v9.txt` comes before `v10.txt`. -/
theorem numbers_demo : ∃ r, strverscmp ([118] ++ decText 9 ++ [46, 116, 120, 116] ++ [0]) ([118] ++ decText 10 ++ [46, 116, 120, 116] ++ [0]) = some r ∧ r < 0 :=
  numbers_by_value (by decide) (by intro c h; cases h; decide) (by intro c h; cases h; decide) (by intro c h; cases h; decide)
    (by intro c hc; revert c; decide)

end Verif.VersCmp
