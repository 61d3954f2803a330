import Verif.Strings.Copy
import Verif.Strings.Spec
/-!
# strutf8len, strnutf8len (C31), str_char2hex (C32)
-/
namespace Verif.Strings

/-! ### UTF-8 -/

/-- A byte that is not a UTF-8 continuation byte. -/
def lead (c : Byte) : Bool := (c &&& 0xC0) ≠ 0x80

theorem lead_iff : ∀ c : Byte, lead c = true ↔ ¬ (0x80 ≤ c.toNat ∧ c.toNat < 0xC0) := by
  apply byte_all; decide +kernel

theorem utf8_run (s after : List Byte) (max : Nat) (h0 : (0 : Byte) ∉ s) :
    ∀ (fuel i cps : Nat), i ≤ s.length → s.length < fuel + i →
      utf8Loop (s ++ 0 :: after) max fuel i cps = some (cps + ((s.take max).drop i).countP lead) := by
  intro fuel
  induction fuel with
  | zero => intro i cps h1 h2; omega
  | succ fuel ih =>
    intro i cps h1 h2
    unfold utf8Loop
    by_cases hi : i < s.length
    · obtain ⟨c, hc, hc0, _⟩ := no0_get h0 after hi
      rw [hc]
      simp only
      by_cases hm : i < max
      · rw [if_pos ⟨hc0, hm⟩, ih (i + 1) _ (by omega) (by omega)]
        have hg : (s.take max).drop i = c :: (s.take max).drop (i + 1) := by
          have : s[i]? = some c := by rw [List.getElem?_append_left hi] at hc; exact hc
          obtain ⟨_, e⟩ := List.getElem?_eq_some_iff.mp this
          rw [List.drop_eq_getElem_cons (by simp; omega)]
          simp [e]
        rw [hg, List.countP_cons]
        congr 1
        simp only [lead, ne_eq, decide_not, Bool.not_eq_true', decide_eq_false_iff_not]
        omega
      · rw [if_neg (by simp [hm])]
        rw [List.drop_eq_nil_of_le (by simp; omega)]; simp
    · have : i = s.length := by omega
      subst this
      rw [nul_get]
      simp only [ne_eq, not_true, false_and, if_false]
      rw [List.drop_eq_nil_of_le (by simp; omega)]; simp

theorem strnutf8len_eq (s after : List Byte) (max : Nat) (h0 : (0 : Byte) ∉ s) :
    strnutf8len (s ++ 0 :: after) max = some ((s.take max).countP lead) := by
  unfold strnutf8len
  rw [utf8_run s after max h0 _ 0 0 (by omega) (by simp; omega)]
  simp

theorem toNat_ofNat {n : Nat} (h : n < 256) : (UInt8.ofNat n).toNat = n := by
  simp; omega

/-- The encoding of a scalar value: a leading byte, then continuation bytes, none of them NUL. -/
theorem utf8_shape {cp : Nat} (h : Spec.Scalar cp) :
    ∃ l t, Spec.utf8 cp = l :: t ∧ lead l = true ∧ (∀ c ∈ t, lead c = false) ∧
      (0 : Byte) ∉ Spec.utf8 cp := by
  have cont : ∀ x, x < 64 → lead (UInt8.ofNat (0x80 + x)) = false ∧ UInt8.ofNat (0x80 + x) ≠ 0 := by
    intro x hx
    have e := toNat_ofNat (n := 0x80 + x) (by omega)
    constructor
    · rw [Bool.eq_false_iff]; intro hl; rw [lead_iff] at hl; omega
    · intro h0; rw [h0] at e; simp at e; omega
  have first : ∀ x, x < 256 → (x < 0x80 ∨ 0xC0 ≤ x) → 0 < x →
      lead (UInt8.ofNat x) = true ∧ UInt8.ofNat x ≠ 0 := by
    intro x hx h1 h2
    have e := toNat_ofNat hx
    constructor
    · rw [lead_iff]; omega
    · intro h0; rw [h0] at e; simp at e; omega
  obtain ⟨h1, h2, _⟩ := h
  unfold Spec.utf8
  split
  · obtain ⟨a, b⟩ := first cp (by omega) (by omega) h1
    exact ⟨_, _, rfl, a, by simp, by simpa using b.symm⟩
  · split
    · obtain ⟨a, b⟩ := first (0xC0 + cp / 64) (by omega) (by omega) (by omega)
      obtain ⟨c1, d1⟩ := cont (cp % 64) (by omega)
      exact ⟨_, _, rfl, a, by simpa [-UInt8.ofNat_add] using c1, by simp [b.symm, d1.symm, -UInt8.ofNat_add]⟩
    · split
      · obtain ⟨a, b⟩ := first (0xE0 + cp / 4096) (by omega) (by omega) (by omega)
        obtain ⟨c1, d1⟩ := cont (cp / 64 % 64) (by omega)
        obtain ⟨c2, d2⟩ := cont (cp % 64) (by omega)
        exact ⟨_, _, rfl, a, by simpa [-UInt8.ofNat_add] using ⟨c1, c2⟩,
          by simp [b.symm, d1.symm, d2.symm, -UInt8.ofNat_add]⟩
      · obtain ⟨a, b⟩ := first (0xF0 + cp / 262144) (by omega) (by omega) (by omega)
        obtain ⟨c0, d0⟩ := cont (cp / 4096 % 64) (by omega)
        obtain ⟨c1, d1⟩ := cont (cp / 64 % 64) (by omega)
        obtain ⟨c2, d2⟩ := cont (cp % 64) (by omega)
        exact ⟨_, _, rfl, a, by simpa [-UInt8.ofNat_add] using ⟨c0, c1, c2⟩,
          by simp [b.symm, d0.symm, d1.symm, d2.symm, -UInt8.ofNat_add]⟩

theorem count_take_shape {l : Byte} {t rest : List Byte} (hl : lead l = true)
    (ht : ∀ c ∈ t, lead c = false) (max : Nat) :
    ((l :: t ++ rest).take max).countP lead =
      if max = 0 then 0 else 1 + (rest.take (max - (l :: t).length)).countP lead := by
  cases max with
  | zero => simp
  | succ k =>
    rw [if_neg (by omega), List.cons_append, List.take_succ_cons, List.countP_cons, if_pos hl,
      List.take_append, List.countP_append]
    have : (t.take k).countP lead = 0 := by
      rw [List.countP_eq_zero]
      intro c hc
      rw [ht c (List.mem_of_mem_take hc)]; simp
    rw [this]
    simp; omega

theorem started_eq (cps : List Nat) (h : ∀ cp ∈ cps, Spec.Scalar cp) :
    ∀ max, ((cps.flatMap Spec.utf8).take max).countP lead = Spec.startedWithin cps max := by
  induction cps with
  | nil => intro max; simp [Spec.startedWithin]
  | cons cp cps ih =>
    intro max
    obtain ⟨l, t, e, hl, ht, _⟩ := utf8_shape (h cp (by simp))
    rw [List.flatMap_cons, Spec.startedWithin, e, count_take_shape hl ht,
      ih (fun c hc => h c (by simp [hc]))]

theorem flat_no0 (cps : List Nat) (h : ∀ cp ∈ cps, Spec.Scalar cp) :
    (0 : Byte) ∉ cps.flatMap Spec.utf8 := by
  intro hm
  obtain ⟨cp, hc, h0⟩ := List.mem_flatMap.mp hm
  obtain ⟨_, _, _, _, _, hn⟩ := utf8_shape (h cp hc)
  exact hn h0

theorem started_all (cps : List Nat) (h : ∀ cp ∈ cps, Spec.Scalar cp) :
    Spec.startedWithin cps (cps.flatMap Spec.utf8).length = cps.length := by
  induction cps with
  | nil => rfl
  | cons cp cps ih =>
    obtain ⟨l, t, e, _⟩ := utf8_shape (h cp (by simp))
    rw [List.flatMap_cons, Spec.startedWithin, if_neg (by rw [e]; simp)]
    have e2 : (Spec.utf8 cp ++ cps.flatMap Spec.utf8).length - (Spec.utf8 cp).length =
      (cps.flatMap Spec.utf8).length := by simp
    rw [e2, ih (fun c hc => h c (by simp [hc]))]
    simp; omega

/-- C31: for every sequence of Unicode scalar values (except NUL), `strutf8len` of its UTF-8 encoding
is the number of code points. -/
theorem strutf8len_spec (cps : List Nat) (after : List Byte) (h : ∀ cp ∈ cps, Spec.Scalar cp) :
    strutf8len (cps.flatMap Spec.utf8 ++ 0 :: after) = some cps.length := by
  have h0 := flat_no0 cps h
  unfold strutf8len
  rw [show Mem.strlen (cps.flatMap Spec.utf8 ++ 0 :: after) 0 = some (cps.flatMap Spec.utf8).length by
    simp [Mem.strlen, Mem.cstr_zero h0]]
  simp only
  rw [strnutf8len_eq _ _ _ h0, started_eq cps h, started_all cps h]

/-- C31: with a limit, `strnutf8len` is the number of code points that start within the first
`max` bytes. -/
theorem strnutf8len_spec (cps : List Nat) (after : List Byte) (max : Nat)
    (h : ∀ cp ∈ cps, Spec.Scalar cp) :
    strnutf8len (cps.flatMap Spec.utf8 ++ 0 :: after) max = some (Spec.startedWithin cps max) := by
  rw [strnutf8len_eq _ _ _ (flat_no0 cps h), started_eq cps h]

/-- FINDING: the terminator is tested before the limit, so `strnutf8len(s, n)` on a buffer of `n` bytes
without NUL reads one byte behind it. -/
theorem strnutf8len_overread (m : Mem) (h0 : (0 : Byte) ∉ m) : strnutf8len m m.length = none := by
  unfold strnutf8len
  have : ∀ (fuel i cps : Nat), i ≤ m.length → utf8Loop m m.length fuel i cps = none := by
    intro fuel
    induction fuel with
    | zero => intro i cps _; rfl
    | succ fuel ih =>
      intro i cps hi
      unfold utf8Loop
      by_cases hlt : i < m.length
      · have hg : m[i]? = some m[i] := by simp [hlt]
        rw [hg]
        have hne : m[i] ≠ 0 := fun e => h0 (e ▸ List.getElem_mem hlt)
        simp only
        rw [if_pos ⟨hne, hlt⟩]
        exact ih _ _ (by omega)
      · rw [List.getElem?_eq_none (by omega)]
  exact this _ _ _ (by omega)

/-- "aé€😀" -/
example : strutf8len [0x61, 0xC3, 0xA9, 0xE2, 0x82, 0xAC, 0xF0, 0x9F, 0x98, 0x80, 0, 9] = some 4 := by
  decide +kernel
example : [0x61, 0xE9, 0x20AC, 0x1F600].flatMap Spec.utf8 =
    [0x61, 0xC3, 0xA9, 0xE2, 0x82, 0xAC, 0xF0, 0x9F, 0x98, 0x80] := by decide +kernel
example : strnutf8len [0x61, 0xC3, 0xA9, 0xE2, 0x82, 0xAC, 0xF0, 0x9F, 0x98, 0x80, 0, 9] 4 = some 3 := by
  decide +kernel

/-! ### str_char2hex -/

theorem store_over {out : Mem} {w x bs : List Byte} (hx : x.length ≤ bs.length)
    (h : w.length + bs.length ≤ out.length) :
    (out.front (w ++ x)).store w.length bs = some (out.front (w ++ bs)) := by
  have hl : (out.front (w ++ x)).length = out.length := Mem.front_length (by simp; omega)
  rw [Mem.store_eq_some (by omega)]
  unfold Mem.front
  congr 1
  rw [List.append_assoc w x, List.take_left', List.drop_append]
  · rw [List.drop_eq_nil_of_le (as := w) (by omega), List.nil_append, List.drop_append,
      List.drop_eq_nil_of_le (as := x) (by omega), List.nil_append, List.drop_drop]
    congr 2
    simp; omega
  · rfl

theorem dump_snoc (s : List Byte) (c : Byte) : Spec.hexDump (s ++ [c]) = Spec.hexDump s ++ hexText c := by
  simp [Spec.hexDump, hexText, lowHex, Spec.hexDigit]

theorem dump_length (s : List Byte) : (Spec.hexDump s).length = 3 * s.length := by
  induction s with
  | nil => rfl
  | cons c s ih => simp [Spec.hexDump] at ih ⊢; omega

theorem hex_run (orig : Mem) (cap : Nat) (chars : Mem) (count : Nat) (hc : count ≤ chars.length)
    (hcap : cap ≤ orig.length) (hc64 : cap < 2 ^ 64) (hroom : 3 * count + 1 ≤ cap) :
    ∀ (fuel i : Nat), i ≤ count → count < fuel + i → 3 * i + 2 ≤ cap →
      hexLoop cap chars count fuel i (3 * i) (orig.front (Spec.hexDump (chars.take i) ++ [0])) =
        some (orig.front ((Spec.hexDump (chars.take count)).take (cap - 2) ++ [0]), 3 * count) := by
  intro fuel
  induction fuel with
  | zero => intro i h1 h2; omega
  | succ fuel ih =>
    intro i h1 h2 h3
    unfold hexLoop
    have hlen : (Spec.hexDump (chars.take i)).length = 3 * i := by
      rw [dump_length]; simp; omega
    by_cases hi : i < count
    · rw [if_pos hi]
      have hlt : i < chars.length := by omega
      have hg : chars[i]? = some chars[i] := by simp [hlt]
      generalize chars[i] = c at hg
      unfold hexPut
      rw [hg]
      simp only
      have htk : chars.take (i + 1) = chars.take i ++ [c] := by rw [List.take_add_one, hg]; rfl
      have elim : hexLim cap (3 * i) = cap - 3 * i - 1 := by unfold hexLim; rw [if_pos (by omega)]
      have ht3 : (hexText c).length = 3 := rfl
      rw [elim]
      unfold Mem.snprintf
      rw [if_neg (by omega)]
      by_cases h4 : 3 * (i + 1) + 2 ≤ cap
      · -- the whole triple fits
        rw [List.take_of_length_le (l := hexText c) (by rw [ht3]; omega)]
        have hst := store_over (out := orig) (w := Spec.hexDump (chars.take i)) (x := [0])
          (bs := hexText c ++ [0]) (by simp) (by simp [ht3, hlen]; omega)
        rw [hlen] at hst
        rw [hst]
        simp only [Option.map_some, ht3, if_true]
        have := ih (i + 1) (by omega) (by omega) h4
        rw [htk, dump_snoc] at this
        rw [List.append_assoc] at this
        rw [show 3 * i + 3 = 3 * (i + 1) by omega]
        exact this
      · -- last triple of an exactly fitting buffer: one digit is cut off
        have hi1 : i + 1 = count := by omega
        have hcapeq : cap = 3 * count + 1 := by omega
        have hst := store_over (out := orig) (w := Spec.hexDump (chars.take i)) (x := [0])
          (bs := (hexText c).take (cap - 3 * i - 1 - 1) ++ [0]) (by simp)
          (by simp [ht3, hlen]; omega)
        rw [hlen] at hst
        rw [hst]
        simp only [Option.map_some, ht3, if_true]
        obtain ⟨f, rfl⟩ : ∃ f, fuel = f + 1 := ⟨fuel - 1, by omega⟩
        unfold hexLoop
        rw [if_neg (by omega)]
        rw [← hi1, htk, dump_snoc, List.take_append, hlen]
        rw [List.take_of_length_le (l := Spec.hexDump _) (by omega)]
        have e : cap - 2 - 3 * i = cap - 3 * i - 1 - 1 := by omega
        rw [e, ← List.append_assoc, show 3 * i + 3 = 3 * (i + 1) by omega]
    · rw [if_neg hi]
      have : i = count := by omega
      subst this
      rw [List.take_of_length_le (l := Spec.hexDump _) (by omega)]

/-- What `str_char2hex` does when it does not announce truncation (`3*count < cap`, the advised
capacity being `3*count+1`): it stays inside `out[0..cap)`, the text is NUL-terminated, and it is the
hex dump cut to `cap - 2` characters. -/
theorem char2hex_spec (out : Mem) (cap : Nat) (chars : Mem) (count : Nat) (hc : count ≤ chars.length)
    (hcap : cap ≤ out.length) (hc64 : cap < 2 ^ 64) (hroom : 3 * count + 2 ≤ cap ∨
      (1 ≤ count ∧ 3 * count + 1 = cap)) :
    char2hex out cap chars count =
      some (out.front ((Spec.hexDump (chars.take count)).take (cap - 2) ++ [0]), 3 * count) := by
  unfold char2hex
  have hp := Mem.poke_front (out := out) (w := []) 0 (by simp; omega)
  rw [Mem.front_nil] at hp
  simp only [List.length_nil, List.nil_append] at hp
  rw [hp]
  simp only
  unfold hexHead
  rw [if_neg (by omega)]
  simp only
  have := hex_run out cap chars count hc hcap hc64 (by omega) (chars.length + 2) 0 (by omega) (by omega)
    (by omega)
  simpa [Spec.hexDump] using this

/-- C32 (part that holds): with one byte more than advised the full dump is produced, inside the
buffer, NUL-terminated, and its exact length returned. -/
theorem char2hex_exact_partial (out : Mem) (cap : Nat) (chars : Mem) (count : Nat)
    (hc : count ≤ chars.length) (hcap : cap ≤ out.length) (hc64 : cap < 2 ^ 64)
    (hroom : 3 * count + 2 ≤ cap) :
    char2hex out cap chars count =
      some (out.front (Spec.hexDump (chars.take count) ++ [0]), 3 * count) := by
  rw [char2hex_spec out cap chars count hc hcap hc64 (Or.inl hroom),
    List.take_of_length_le (by rw [dump_length]; simp; omega)]

/-- FINDING: with exactly the advised capacity `3*count+1` the last hexadecimal digit is missing,
although the returned length counts it. -/
theorem char2hex_advised_capacity_loses_digit (out : Mem) (chars : Mem) (count : Nat)
    (h1 : 1 ≤ count) (hc : count ≤ chars.length) (hcap : 3 * count + 1 ≤ out.length)
    (hc64 : 3 * count + 1 < 2 ^ 64) :
    char2hex out (3 * count + 1) chars count =
      some (out.front ((Spec.hexDump (chars.take count)).take (3 * count - 1) ++ [0]), 3 * count) ∧
    (Spec.hexDump (chars.take count)).length = 3 * count := by
  refine ⟨?_, by rw [dump_length]; simp; omega⟩
  rw [char2hex_spec out _ chars count hc hcap hc64 (Or.inr ⟨h1, rfl⟩)]
  congr 5

theorem truncText_length (n : Nat) (h : n < 2 ^ 64) :
    17 ≤ (truncText n).length ∧ (truncText n).length ≤ 36 := by
  have h1 := Nat.length_toDigits_pos (b := 10) (n := n)
  have h2 := (Nat.length_toDigits_le_iff (n := n) (b := 10) (k := 20) (by omega) (by omega)).mpr
    (by omega)
  simp [truncText, decText]
  omega

theorem hex_trunc (cap : Nat) (chars : Mem) (len0 : Nat) (hl0 : 17 ≤ len0) (hl1 : len0 ≤ 36)
    (h6 : 6 ≤ cap) (hc64 : cap < 2 ^ 64) (hch : cap / 3 ≤ chars.length) :
    ∀ (k fuel i : Nat) (out : Mem), i + k + 1 = cap / 3 - 1 → k < fuel → out.length = cap →
      hexLoop cap chars (cap / 3 - 1) fuel i (len0 + 3 * i) out = none := by
  intro k
  induction k with
  | zero =>
    intro fuel i out hk hf ho
    obtain ⟨f, rfl⟩ : ∃ f, fuel = f + 1 := ⟨fuel - 1, by omega⟩
    unfold hexLoop
    rw [if_pos (by omega)]
    have hg : chars[i]? = some (chars[i]'(by omega)) := by rw [List.getElem?_eq_getElem]
    unfold hexPut
    rw [hg]
    simp only
    unfold Mem.snprintf
    rw [if_neg (by unfold hexLim; split <;> omega)]
    unfold Mem.store
    rw [if_neg (by simp; omega)]
    rfl
  | succ k ih =>
    intro fuel i out hk hf ho
    obtain ⟨f, rfl⟩ : ∃ f, fuel = f + 1 := ⟨fuel - 1, by omega⟩
    unfold hexLoop
    rw [if_pos (by omega)]
    have hg : chars[i]? = some (chars[i]'(by omega)) := by rw [List.getElem?_eq_getElem]
    unfold hexPut
    rw [hg]
    simp only
    generalize chars[i]'(by omega) = c
    have ht3 : (hexText c).length = 3 := rfl
    have e : len0 + 3 * i + 3 = len0 + 3 * (i + 1) := by omega
    unfold Mem.snprintf
    by_cases hz : hexLim cap (len0 + 3 * i) = 0
    · rw [if_pos hz]
      simp only [ht3, if_true]
      rw [e]
      exact ih f (i + 1) out (by omega) (by omega) ho
    · rw [if_neg hz]
      by_cases hfit : len0 + 3 * i + ((hexText c).take (hexLim cap (len0 + 3 * i) - 1) ++ [0]).length
          ≤ out.length
      · rw [Mem.store_eq_some hfit]
        simp only [Option.map_some, ht3, if_true]
        rw [e]
        exact ih f (i + 1) _ (by omega) (by omega) (by rw [Mem.store_length _ _ _ hfit, ho])
      · unfold Mem.store
        rw [if_neg hfit]
        rfl

/-- FINDING (negation of C32 for truncation): whenever the input does not fit (`3*count ≥ cap`) and the
capacity is at least 6, `str_char2hex` writes outside an output object of `cap` bytes — for every
input.  (The size passed to `snprintf` wraps below zero.) -/
theorem char2hex_truncation_overflows (out : Mem) (cap : Nat) (chars : Mem) (count : Nat)
    (hc : count ≤ chars.length) (hout : out.length = cap) (h6 : 6 ≤ cap)
    (hbig : cap ≤ 3 * count) (hc64 : 3 * count < 2 ^ 64) :
    char2hex out cap chars count = none := by
  unfold char2hex
  unfold Mem.poke
  rw [if_pos (by omega)]
  simp only
  unfold hexHead
  rw [if_pos (by omega)]
  have elim : (cap + 2 ^ 64 - 1) % 2 ^ 64 = cap - 1 := by omega
  rw [elim]
  unfold Mem.snprintf
  rw [if_neg (by omega)]
  have hfit : 0 + ((truncText count).take (cap - 1 - 1) ++ [0]).length ≤ (out.set 0 0).length := by
    simp; omega
  rw [Mem.store_eq_some hfit]
  simp only [Option.map_some]
  obtain ⟨h1, h2⟩ := truncText_length count (by omega)
  have e2 : (cap / 3 + 2 ^ 64 - 1) % 2 ^ 64 = cap / 3 - 1 := by omega
  rw [e2]
  have := hex_trunc cap chars (truncText count).length h1 h2 h6 (by omega) (by omega) (cap / 3 - 2)
    (chars.length + 2) 0 _ (by omega) (by omega)
    (by rw [Mem.store_length _ _ _ hfit]; simpa using hout)
  simpa using this

/-- Dump of 0x0f 0xa5 in a buffer of 8. -/
example : char2hex (List.replicate 9 7) 8 [15, 165] 2 =
    some ([32, 48, 102, 32, 97, 53, 0, 7, 7], 6) := by decide +kernel
/-- The advised capacity 7: the final '5' is lost. -/
example : char2hex (List.replicate 9 7) 7 [15, 165] 2 =
    some ([32, 48, 102, 32, 97, 0, 7, 7, 7], 6) := by decide +kernel
/-- With guard bytes behind a 9-byte buffer: the truncated dump overwrites them. -/
example : ((char2hex (List.replicate 40 7) 9 [1, 2, 3, 4] 4).map fun r => r.1.drop 9) =
    some ([7, 7, 7, 7, 7, 7, 7, 7, 32, 48, 49, 32, 48, 50, 0] ++ List.replicate 16 7) := by
  decide +kernel

end Verif.Strings
