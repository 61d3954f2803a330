import Verif.Base64.Spec
/-!
# Lemmas for base64
-/
namespace Verif.Base64

/-- The output object after `w` has been written to its front. -/
def at' (out : Mem) (w : List Byte) : Out := ⟨w ++ out.drop w.length, w.length⟩

theorem put_at' {out : Mem} {w : List Byte} (c : Byte) (h : w.length < out.length) :
    (at' out w).put c = some (at' out (w ++ [c])) := by
  unfold Out.put at'
  have : w.length < (w ++ out.drop w.length).length := by simp; omega
  rw [if_pos this]
  congr 1
  simp only [List.length_append, List.length_cons, List.length_nil, Out.mk.injEq, Nat.zero_add,
    and_true]
  have e : out.drop w.length = out[w.length] :: out.drop (w.length + 1) :=
    List.drop_eq_getElem_cons h
  simp [e, -List.getElem_cons_drop]

/-! ### one-byte facts (finite: the 256 bytes) -/

theorem byte_all {P : Byte → Prop} (h : ∀ n : Fin 256, P (UInt8.ofNat n)) (b : Byte) : P b := by
  have := h ⟨b.toNat, b.toNat_lt⟩
  simpa using this

theorem basisAt_alpha : ∀ v : Fin 64, basis64[v.val]? = some (Spec.alpha v) := by decide +kernel

theorem basisAt_eq {x : BitVec 32} {v : Nat} (hx : x.toNat = v) (hv : v < 64) :
    basisAt x = some (Spec.alpha v) := by
  unfold basisAt; rw [hx]; exact basisAt_alpha ⟨v, hv⟩

theorem ix1_nat (a : Byte) : (ix1 a).toNat = a.toNat / 4 := by
  revert a; apply byte_all; decide +kernel
theorem ix4_nat (a : Byte) : (ix4 a).toNat = a.toNat % 64 := by
  revert a; apply byte_all; decide +kernel
theorem ix2last_nat (a : Byte) : (ix2last a).toNat = a.toNat % 4 * 16 := by
  revert a; apply byte_all; decide +kernel
theorem ix3last_nat (a : Byte) : (ix3last a).toNat = a.toNat % 16 * 4 := by
  revert a; apply byte_all; decide +kernel
theorem hi4_nat (b : Byte) : ((promote b &&& 0xF0#32).sshiftRight 4).toNat = b.toNat / 16 := by
  revert b; apply byte_all; decide +kernel
theorem hi2_nat (b : Byte) : ((promote b &&& 0xC0#32).sshiftRight 6).toNat = b.toNat / 64 := by
  revert b; apply byte_all; decide +kernel

theorem or_low {x y k : Nat} (h : y < 2 ^ k) : (x * 2 ^ k) ||| y = x * 2 ^ k + y := by
  rw [← Nat.shiftLeft_eq, Nat.shiftLeft_add_eq_or_of_lt h]

theorem ix2_nat (a b : Byte) : (ix2 a b).toNat = a.toNat % 4 * 16 + b.toNat / 16 := by
  have h := ix2last_nat a
  unfold ix2last at h
  have hb := b.toNat_lt
  unfold ix2
  rw [BitVec.toNat_or, h, hi4_nat]
  exact or_low (k := 4) (by omega)

theorem ix3_nat (b c : Byte) : (ix3 b c).toNat = b.toNat % 16 * 4 + c.toNat / 64 := by
  have h := ix3last_nat b
  unfold ix3last at h
  have hb := c.toNat_lt
  unfold ix3
  rw [BitVec.toNat_or, h, hi2_nat]
  exact or_low (k := 2) (by omega)

/-! ### the encoder -/

theorem spec_encode_length : ∀ l : List Byte, (Spec.encode l).length = (l.length + 2) / 3 * 4
  | a :: b :: c :: rest => by
    simp only [Spec.encode, List.length_cons, spec_encode_length rest]; omega
  | [a, b] => by simp [Spec.encode]
  | [a] => by simp [Spec.encode]
  | [] => by simp [Spec.encode]

theorem drop_take_cons {src : Mem} {n i : Nat} (hn : n ≤ src.length) (hi : i < n) :
    ∃ a, src[i]? = some a ∧ (src.take n).drop i = a :: (src.take n).drop (i + 1) := by
  have h1 : i < src.length := by omega
  refine ⟨src[i], by simp [h1], ?_⟩
  rw [List.drop_eq_getElem_cons (by simp; omega)]
  simp

theorem enc_loop (out src : Mem) (n : Nat) (hn : n ≤ src.length) (h2 : 2 ≤ n) :
    ∀ (fuel i : Nat) (w : List Byte), i ≤ n → n < fuel + i →
      w.length + (n - i + 2) / 3 * 4 ≤ out.length →
      ∃ r, encLoop src (n - 2) fuel i (at' out w) = some r ∧
        encTail src n r.1 r.2 = some (at' out (w ++ Spec.encode ((src.take n).drop i))) := by
  intro fuel
  induction fuel with
  | zero => intro i w h1 h2; omega
  | succ fuel ih =>
    intro i w hi hf hroom
    unfold encLoop
    by_cases hlt : i < n - 2
    · rw [if_pos hlt]
      obtain ⟨a, ha, da⟩ := drop_take_cons (i := i) hn (by omega)
      obtain ⟨b, hb, db⟩ := drop_take_cons (i := i + 1) hn (by omega)
      obtain ⟨c, hc, dc⟩ := drop_take_cons (i := i + 2) hn (by omega)
      have la := a.toNat_lt
      have lb := b.toNat_lt
      have lc := c.toNat_lt
      have e1 := basisAt_eq (ix1_nat a) (by omega)
      have e2 := basisAt_eq (ix2_nat a b) (by omega)
      have e3 := basisAt_eq (ix3_nat b c) (by omega)
      have e4 := basisAt_eq (ix4_nat c) (by omega)
      have hr : w.length + 4 ≤ out.length := by omega
      rw [ha, hb, hc]
      simp only [Option.bind_eq_bind, Option.bind_some, e1, e2, e3, e4]
      rw [put_at' _ (by omega), Option.bind_some, put_at' _ (by simp; omega), Option.bind_some,
        put_at' _ (by simp; omega), Option.bind_some, put_at' _ (by simp; omega), Option.bind_some]
      obtain ⟨r, h3, h4⟩ := ih (i + 3) (w ++ [Spec.alpha (a.toNat / 4)] ++
          [Spec.alpha (a.toNat % 4 * 16 + b.toNat / 16)] ++
          [Spec.alpha (b.toNat % 16 * 4 + c.toNat / 64)] ++ [Spec.alpha (c.toNat % 64)]) (by omega) (by omega)
        (by simp only [List.length_append, List.length_cons, List.length_nil]; omega)
      refine ⟨r, h3, ?_⟩
      rw [h4, da, db, dc]
      congr 2
      simp only [List.append_assoc, List.cons_append, List.nil_append, Spec.encode]
      have q1 : (a.toNat * 65536 + b.toNat * 256 + c.toNat) / 262144 = a.toNat / 4 := by omega
      have q2 : (a.toNat * 65536 + b.toNat * 256 + c.toNat) / 4096 % 64
          = a.toNat % 4 * 16 + b.toNat / 16 := by omega
      have q3 : (a.toNat * 65536 + b.toNat * 256 + c.toNat) / 64 % 64
          = b.toNat % 16 * 4 + c.toNat / 64 := by omega
      have q4 : (a.toNat * 65536 + b.toNat * 256 + c.toNat) % 64 = c.toNat % 64 := by omega
      rw [q1, q2, q3, q4]
    · rw [if_neg hlt]
      refine ⟨_, rfl, ?_⟩
      simp only [encTail]
      by_cases h0 : i < n
      · rw [if_pos h0]
        obtain ⟨a, ha, da⟩ := drop_take_cons (i := i) hn (by omega)
        have la := a.toNat_lt
        have e1 := basisAt_eq (ix1_nat a) (by omega)
        have hr : w.length + 4 ≤ out.length := by omega
        by_cases h1 : i = n - 1
        · rw [if_pos h1]
          have dn : (src.take n).drop (i + 1) = [] := by
            apply List.drop_eq_nil_of_le; simp; omega
          have e2 := basisAt_eq (ix2last_nat a) (by omega)
          simp only [encTail1, ha, Option.bind_eq_bind, Option.bind_some, e1, e2]
          rw [put_at' _ (by omega), Option.bind_some, put_at' _ (by simp; omega), Option.bind_some,
            put_at' _ (by simp; omega), Option.bind_some, put_at' _ (by simp; omega)]
          rw [da, dn]
          simp only [List.append_assoc, List.cons_append, List.nil_append, Spec.encode, Spec.pad]
          have q1 : a.toNat * 16 / 64 = a.toNat / 4 := by omega
          have q2 : a.toNat * 16 % 64 = a.toNat % 4 * 16 := by omega
          rw [q1, q2]
        · rw [if_neg h1]
          obtain ⟨b, hb, db⟩ := drop_take_cons (i := i + 1) hn (by omega)
          have lb := b.toNat_lt
          have dn : (src.take n).drop (i + 1 + 1) = [] := by
            apply List.drop_eq_nil_of_le; simp; omega
          have e2 := basisAt_eq (ix2_nat a b) (by omega)
          have e3 := basisAt_eq (ix3last_nat b) (by omega)
          simp only [encTail2, ha, hb, Option.bind_eq_bind, Option.bind_some, e1, e2, e3]
          rw [put_at' _ (by omega), Option.bind_some, put_at' _ (by simp; omega), Option.bind_some,
            put_at' _ (by simp; omega), Option.bind_some, put_at' _ (by simp; omega)]
          rw [da, db, dn]
          simp only [List.append_assoc, List.cons_append, List.nil_append, Spec.encode, Spec.pad]
          have q1 : (a.toNat * 256 + b.toNat) * 4 / 4096 = a.toNat / 4 := by omega
          have q2 : (a.toNat * 256 + b.toNat) * 4 / 64 % 64
            = a.toNat % 4 * 16 + b.toNat / 16 := by omega
          have q3 : (a.toNat * 256 + b.toNat) * 4 % 64 = b.toNat % 16 * 4 := by omega
          rw [q1, q2, q3]
      · rw [if_neg h0]
        have dn : (src.take n).drop i = [] := by
          apply List.drop_eq_nil_of_le; simp; omega
        rw [dn]; simp [Spec.encode]

theorem encode_run (out src : Mem) (n : Nat) (hn : n ≤ src.length) (h2 : 2 ≤ n)
    (hroom : (n + 2) / 3 * 4 + 1 ≤ out.length) :
    encode out src n = some (Spec.encode (src.take n) ++ 0 :: out.drop ((n + 2) / 3 * 4 + 1),
      toInt32 ((n + 2) / 3 * 4 + 1)) := by
  unfold encode
  rw [if_neg (by omega)]
  obtain ⟨r, h3, h4⟩ := enc_loop out src n hn h2 (n + 1) 0 [] (by omega) (by omega)
    (by simp; omega)
  have e0 : (⟨out, 0⟩ : Out) = at' out [] := by simp [at']
  have hl : (Spec.encode (src.take n)).length = (n + 2) / 3 * 4 := by
    rw [spec_encode_length]; simp [Nat.min_eq_left hn]
  rw [e0, h3]
  simp only [Option.bind_eq_bind, Option.bind_some]
  simp only [List.nil_append, List.drop_zero] at h4
  rw [h4, Option.bind_some, put_at' _ (by omega), Option.bind_some]
  simp [at', hl]

/-! ### the decoder -/

theorem six_value : ∀ c : Byte, six c = (Spec.value c).getD 64 := by
  apply byte_all; decide +kernel
theorem value_lt : ∀ c : Byte, (Spec.value c).getD 0 < 64 := by
  apply byte_all; decide +kernel

theorem six_lt {c : Byte} (h : (Spec.value c).isSome) : six c < 64 := by
  have := value_lt c
  rw [six_value]
  cases hv : Spec.value c with
  | none => simp [hv] at h
  | some v => simp [hv] at this ⊢; exact this

theorem six_le_iff (c : Byte) : six c ≤ 63 ↔ (Spec.value c).isSome = true := by
  have h := value_lt c
  rw [six_value]
  cases hv : Spec.value c with
  | none => simp
  | some v => simp [hv] at h ⊢; omega

theorem u8_ext {a b : Nat} (h : a % 256 = b % 256) : UInt8.ofNat a = UInt8.ofNat b := by
  apply UInt8.toNat_inj.mp; simpa using h

theorem dec1_eq {a b : Byte} (ha : six a < 64) (hb : six b < 64) :
    dec1 a b = UInt8.ofNat (six a * 4 + six b / 16) := by
  unfold dec1
  rw [Nat.shiftLeft_eq, Nat.shiftRight_eq_div_pow, or_low (k := 2) (by omega)]

theorem dec2_eq {b c : Byte} (hb : six b < 64) (hc : six c < 64) :
    dec2 b c = UInt8.ofNat (six b * 16 + six c / 4) := by
  unfold dec2
  rw [Nat.shiftLeft_eq, Nat.shiftRight_eq_div_pow, or_low (k := 4) (by omega)]

theorem dec3_eq {c d : Byte} (hd : six d < 64) :
    dec3 c d = UInt8.ofNat (six c * 64 + six d) := by
  unfold dec3
  rw [Nat.shiftLeft_eq, or_low (k := 6) (by omega)]

theorem scan_run (src : Mem) (good : List Byte) (stop : Byte) (rest : List Byte)
    (hs : src = good ++ stop :: rest) (hg : ∀ c ∈ good, (Spec.value c).isSome)
    (hstop : Spec.value stop = none) :
    ∀ (k fuel : Nat), k ≤ good.length → k < fuel →
      scan src fuel (good.length - k) = some good.length := by
  intro k
  induction k with
  | zero =>
    intro fuel _ hf
    obtain ⟨f, rfl⟩ : ∃ f, fuel = f + 1 := ⟨fuel - 1, by omega⟩
    have : src[good.length - 0]? = some stop := by rw [hs]; simp
    unfold scan
    rw [this]
    have h6 : ¬ six stop ≤ 63 := by rw [six_le_iff, hstop]; simp
    simp [h6]
  | succ k ih =>
    intro fuel hk hf
    obtain ⟨f, rfl⟩ : ∃ f, fuel = f + 1 := ⟨fuel - 1, by omega⟩
    have hlt : good.length - (k + 1) < good.length := by omega
    have : src[good.length - (k + 1)]? = some good[good.length - (k + 1)] := by
      rw [hs, List.getElem?_append_left hlt]; simp [hlt]
    unfold scan
    rw [this]
    have h6 : six good[good.length - (k + 1)] ≤ 63 := by
      rw [six_le_iff]; exact hg _ (List.getElem_mem hlt)
    simp only [h6, if_true]
    have e : good.length - (k + 1) + 1 = good.length - k := by omega
    rw [e]
    exact ih f (by omega) (by omega)

/-- The values of a list of alphabet characters. -/
def vals (l : List Byte) : List Nat := l.map six

theorem values_eq (good : List Byte) (stop : Byte) (rest : List Byte)
    (hg : ∀ c ∈ good, (Spec.value c).isSome) (hstop : Spec.value stop = none) :
    Spec.values (good ++ stop :: rest) = vals good := by
  unfold Spec.values vals
  have h1 : (good ++ stop :: rest).takeWhile (fun c => (Spec.value c).isSome) = good := by
    induction good with
    | nil => simp [hstop]
    | cons a l ih =>
      rw [List.cons_append, List.takeWhile_cons]
      rw [if_pos (hg a (by simp))]
      rw [ih (fun c hc => hg c (by simp [hc]))]
  rw [h1]
  clear h1
  induction good with
  | nil => rfl
  | cons a l ih =>
    have ha := hg a (by simp)
    rw [List.filterMap_cons]
    cases hv : Spec.value a with
    | none => simp [hv] at ha
    | some v =>
      have : six a = v := by rw [six_value, hv]; rfl
      simp only [List.map_cons, this]
      rw [ih (fun c hc => hg c (by simp [hc]))]

theorem spec_bytes_length : ∀ l : List Nat, (Spec.bytes l).length = l.length * 3 / 4
  | a :: b :: c :: d :: rest => by
    simp only [Spec.bytes, List.length_cons, spec_bytes_length rest]; omega
  | [a, b, c] => by simp [Spec.bytes]
  | [a, b] => by simp [Spec.bytes]
  | [a] => by simp [Spec.bytes]
  | [] => by simp [Spec.bytes]

theorem good_get {src : Mem} {good rest : List Byte} (hs : src = good ++ rest) {i : Nat}
    (hi : i < good.length) (hg : ∀ c ∈ good, (Spec.value c).isSome) :
    ∃ a, src[i]? = some a ∧ six a < 64 ∧ (vals good).drop i = six a :: (vals good).drop (i + 1) := by
  refine ⟨good[i], ?_, six_lt (hg _ (List.getElem_mem hi)), ?_⟩
  · rw [hs, List.getElem?_append_left hi]; simp [hi]
  · rw [List.drop_eq_getElem_cons (by simp [vals]; omega)]
    simp [vals]

theorem dec_run (out src : Mem) (good rest : List Byte) (hs : src = good ++ rest)
    (hg : ∀ c ∈ good, (Spec.value c).isSome) :
    ∀ (fuel i : Nat) (w : List Byte), i ≤ good.length → good.length < fuel + i →
      w.length + (good.length - i) * 3 / 4 ≤ out.length →
      ∃ r o1 o2, decLoop src fuel (good.length - i) i (at' out w) = some r ∧
        tail1 src r.1 r.2.1 r.2.2 = some o1 ∧ tail2 src r.1 r.2.1 o1 = some o2 ∧
        tail3 src r.1 r.2.1 o2 = some (at' out (w ++ Spec.bytes ((vals good).drop i))) ∧
        r.1 ≤ 4 ∧ r.1 ≤ good.length - i ∧ (good.length - i - r.1) % 4 = 0 ∧
        (0 < good.length - i → 0 < r.1) := by
  intro fuel
  induction fuel with
  | zero => intro i w h1 h2; omega
  | succ fuel ih =>
    intro i w hi hf hroom
    unfold decLoop
    by_cases hlt : good.length - i > 4
    · rw [if_pos hlt]
      obtain ⟨a, ha, la, da⟩ := good_get hs (i := i) (by omega) hg
      obtain ⟨b, hb, lb, db⟩ := good_get hs (i := i + 1) (by omega) hg
      obtain ⟨c, hc, lc, dc⟩ := good_get hs (i := i + 2) (by omega) hg
      obtain ⟨d, hd, ld, dd⟩ := good_get hs (i := i + 3) (by omega) hg
      rw [ha, hb, hc, hd]
      simp only [Option.bind_eq_bind, Option.bind_some]
      rw [put_at' _ (by omega), Option.bind_some, put_at' _ (by simp; omega), Option.bind_some,
        put_at' _ (by simp; omega), Option.bind_some]
      have e : good.length - i - 4 = good.length - (i + 4) := by omega
      rw [e]
      obtain ⟨r, o1, o2, h3, h4, h5, h6, h7, h8, h9, h10⟩ :=
        ih (i + 4) (w ++ [dec1 a b] ++ [dec2 b c] ++ [dec3 c d]) (by omega) (by omega)
        (by simp only [List.length_append, List.length_cons, List.length_nil]; omega)
      refine ⟨r, o1, o2, h3, h4, h5, ?_, h7, by omega, by omega, by omega⟩
      rw [h6, da, db, dc, dd, dec1_eq la lb, dec2_eq lb lc, dec3_eq ld]
      congr 2
      simp only [List.append_assoc, List.cons_append, List.nil_append, Spec.bytes]
      have q1 : UInt8.ofNat ((((six a * 64 + six b) * 64 + six c) * 64 + six d) / 65536)
          = UInt8.ofNat (six a * 4 + six b / 16) := u8_ext (by omega)
      have q2 : UInt8.ofNat ((((six a * 64 + six b) * 64 + six c) * 64 + six d) / 256 % 256)
          = UInt8.ofNat (six b * 16 + six c / 4) := u8_ext (by omega)
      have q3 : UInt8.ofNat ((((six a * 64 + six b) * 64 + six c) * 64 + six d) % 256)
          = UInt8.ofNat (six c * 64 + six d) := u8_ext (by omega)
      rw [q1, q2, q3]
    · rw [if_neg hlt]
      have hc : good.length - i = 0 ∨ good.length - i = 1 ∨ good.length - i = 2 ∨
        good.length - i = 3 ∨ good.length - i = 4 := by omega
      rcases hc with h0 | h0 | h0 | h0 | h0
      · have dn : (vals good).drop i = [] := by
          apply List.drop_eq_nil_of_le; simp [vals]; omega
        refine ⟨_, at' out w, at' out w, rfl, ?_⟩
        simp only [h0, tail1, tail2, tail3, dn, Spec.bytes]
        simp
      · obtain ⟨a, ha, la, da⟩ := good_get hs (i := i) (by omega) hg
        have dn : (vals good).drop (i + 1) = [] := by
          apply List.drop_eq_nil_of_le; simp [vals]; omega
        refine ⟨_, at' out w, at' out w, rfl, ?_⟩
        simp only [h0, tail1, tail2, tail3, da, dn, Spec.bytes]
        simp
      · obtain ⟨a, ha, la, da⟩ := good_get hs (i := i) (by omega) hg
        obtain ⟨b, hb, lb, db⟩ := good_get hs (i := i + 1) (by omega) hg
        have dn : (vals good).drop (i + 1 + 1) = [] := by
          apply List.drop_eq_nil_of_le; simp [vals]; omega
        refine ⟨_, at' out (w ++ [dec1 a b]), at' out (w ++ [dec1 a b]), rfl, ?_⟩
        simp only [h0, tail1, tail2, tail3, decPut, da, db, dn, Spec.bytes, ha, hb]
        have hr : w.length < out.length := by omega
        have q1 : UInt8.ofNat ((six a * 64 + six b) / 16)
          = UInt8.ofNat (six a * 4 + six b / 16) := u8_ext (by omega)
        simp [put_at' _ hr, dec1_eq la lb, q1]
      · obtain ⟨a, ha, la, da⟩ := good_get hs (i := i) (by omega) hg
        obtain ⟨b, hb, lb, db⟩ := good_get hs (i := i + 1) (by omega) hg
        obtain ⟨c, hc, lc, dc⟩ := good_get hs (i := i + 2) (by omega) hg
        have dn : (vals good).drop (i + 2 + 1) = [] := by
          apply List.drop_eq_nil_of_le; simp [vals]; omega
        refine ⟨_, at' out (w ++ [dec1 a b]), at' out (w ++ [dec1 a b] ++ [dec2 b c]), rfl, ?_⟩
        have hr : w.length < out.length := by omega
        have hr2 : (w ++ [dec1 a b]).length < out.length := by simp; omega
        have q1 : UInt8.ofNat (((six a * 64 + six b) * 64 + six c) / 1024)
          = UInt8.ofNat (six a * 4 + six b / 16) := u8_ext (by omega)
        have q2 : UInt8.ofNat (((six a * 64 + six b) * 64 + six c) / 4 % 256)
          = UInt8.ofNat (six b * 16 + six c / 4) := u8_ext (by omega)
        have p1 := put_at' (dec1 a b) hr
        have p2 := put_at' (dec2 b c) hr2
        have hc' : src[i + 1 + 1]? = some c := hc
        simp only [h0, tail1, tail2, tail3, decPut, da, db, dc, dn, Spec.bytes, ha, hb, hc',
          Option.bind_eq_bind, Option.bind_some, p1, p2, q1, q2]
        rw [dec1_eq la lb, dec2_eq lb lc]
        simp
      · obtain ⟨a, ha, la, da⟩ := good_get hs (i := i) (by omega) hg
        obtain ⟨b, hb, lb, db⟩ := good_get hs (i := i + 1) (by omega) hg
        obtain ⟨c, hc, lc, dc⟩ := good_get hs (i := i + 2) (by omega) hg
        obtain ⟨d, hd, ld, dd⟩ := good_get hs (i := i + 3) (by omega) hg
        have dn : (vals good).drop (i + 3 + 1) = [] := by
          apply List.drop_eq_nil_of_le; simp [vals]; omega
        refine ⟨_, at' out (w ++ [dec1 a b]), at' out (w ++ [dec1 a b] ++ [dec2 b c]), rfl, ?_⟩
        have hr : w.length < out.length := by omega
        have hr2 : (w ++ [dec1 a b]).length < out.length := by simp; omega
        have hr3 : (w ++ [dec1 a b] ++ [dec2 b c]).length < out.length := by simp; omega
        have p1 := put_at' (dec1 a b) hr
        have p2 := put_at' (dec2 b c) hr2
        have p3 := put_at' (dec3 c d) hr3
        have q1 : UInt8.ofNat ((((six a * 64 + six b) * 64 + six c) * 64 + six d) / 65536)
          = UInt8.ofNat (six a * 4 + six b / 16) := u8_ext (by omega)
        have q2 : UInt8.ofNat ((((six a * 64 + six b) * 64 + six c) * 64 + six d) / 256 % 256)
          = UInt8.ofNat (six b * 16 + six c / 4) := u8_ext (by omega)
        have q3 : UInt8.ofNat ((((six a * 64 + six b) * 64 + six c) * 64 + six d) % 256)
          = UInt8.ofNat (six c * 64 + six d) := u8_ext (by omega)
        have hc' : src[i + 1 + 1]? = some c := hc
        have hd' : src[i + 2 + 1]? = some d := hd
        simp only [h0, tail1, tail2, tail3, decPut, da, db, dc, dd, dn, Spec.bytes, ha, hb, hc',
          hd', Option.bind_eq_bind, Option.bind_some, p1, p2, p3, q1, q2, q3]
        rw [dec1_eq la lb, dec2_eq lb lc, dec3_eq ld]
        simp

theorem decode_run (out good rest : List Byte) (stop : Byte)
    (hg : ∀ c ∈ good, (Spec.value c).isSome) (hstop : Spec.value stop = none)
    (hroom : good.length * 3 / 4 + 1 ≤ out.length) :
    decode out (good ++ stop :: rest) =
      some (Spec.decode (good ++ stop :: rest) ++ 0 :: out.drop (good.length * 3 / 4 + 1),
        ((good.length * 3 / 4 : Nat) : Int)) := by
  unfold decode
  have hsc := scan_run (good ++ stop :: rest) good stop rest rfl hg hstop good.length
    ((good ++ stop :: rest).length + 1) (by omega) (by simp; omega)
  rw [Nat.sub_self] at hsc
  rw [hsc]
  obtain ⟨r, o1, o2, h3, h4, h5, h6, h7, h8, h9, h10⟩ :=
    dec_run out (good ++ stop :: rest) good (stop :: rest) rfl hg (good.length + 1) 0 []
      (by omega) (by omega) (by simp; omega)
  have e0 : (⟨out, 0⟩ : Out) = at' out [] := by simp [at']
  rw [Nat.sub_zero] at h3
  simp only [Option.bind_eq_bind, Option.bind_some, e0, h3, h4, h5, h6]
  have hl : (Spec.bytes (vals good)).length = good.length * 3 / 4 := by
    rw [spec_bytes_length]; simp [vals]
  have hd : Spec.decode (good ++ stop :: rest) = Spec.bytes (vals good) := by
    unfold Spec.decode; rw [values_eq good stop rest hg hstop]
  rw [List.nil_append, List.drop_zero, put_at' _ (by omega), Option.bind_some, hd]
  congr 1
  refine Prod.ext ?_ ?_
  · simp [at', hl]
  · simp only
    have hr : r.1 = 0 ∨ r.1 = 1 ∨ r.1 = 2 ∨ r.1 = 3 ∨ r.1 = 4 := by omega
    rcases hr with h | h | h | h | h <;> rw [h] at h8 h9 h10 ⊢ <;> simp <;> omega

end Verif.Base64
