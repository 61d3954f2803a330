import Verif.Base64.Lemmas
/-!
# Theorems about base64.c (C24, C25)

`Spec.encode` / `Spec.decode` are RFC 4648 written with numerals.  `out`, `src` are the memory objects
passed by the caller; a result `some` means that no access left them.
-/
namespace Verif.Base64

theorem toInt32_small {n : Nat} (h : n < 2 ^ 31) : toInt32 n = n := by
  unfold toInt32
  rw [BitVec.toInt_eq_toNat_of_lt]
  · simp; omega
  · simp; omega

/-- C25 (encoder): for every input of at least two bytes and every output object with room for
`4*ceil(n/3)+1` bytes, the encoder writes exactly the RFC 4648 text and a NUL, leaves the rest of the
object unchanged, stays inside both objects, and returns the number of bytes written (NUL included). -/
theorem encode_spec (out src : Mem) (n : Nat) (hn : n ≤ src.length) (h2 : 2 ≤ n)
    (hroom : (n + 2) / 3 * 4 + 1 ≤ out.length) (hint : (n + 2) / 3 * 4 + 1 < 2 ^ 31) :
    encode out src n = some (Spec.encode (src.take n) ++ 0 :: out.drop ((n + 2) / 3 * 4 + 1),
      (((n + 2) / 3 * 4 + 1 : Nat) : Int)) := by
  rw [encode_run out src n hn h2 hroom, toInt32_small hint]

/-- C25: inputs shorter than two bytes are refused with `-1` and nothing is written. -/
theorem encode_short (out src : Mem) (n : Nat) (h : n < 2) : encode out src n = some (out, -1) := by
  unfold encode; rw [if_pos h]

/-- C25: the text written has `4*ceil(n/3)` characters, all of the standard alphabet or padding. -/
theorem encode_chars (l : List Byte) :
    (Spec.encode l).length = (l.length + 2) / 3 * 4 ∧
    ∀ c ∈ Spec.encode l, (Spec.value c).isSome ∨ c = Spec.pad := by
  refine ⟨spec_encode_length l, ?_⟩
  have hal : ∀ v : Fin 64, (Spec.value (Spec.alpha v)).isSome := by decide
  have h1 : ∀ v, v < 64 → (Spec.value (Spec.alpha v)).isSome := fun v hv => hal ⟨v, hv⟩
  fun_induction Spec.encode l with
  | case1 a b c rest N ih =>
    intro x hx
    have la := a.toNat_lt; have lb := b.toNat_lt; have lc := c.toNat_lt
    simp only [List.mem_cons] at hx
    rcases hx with h | h | h | h | h
    · subst h; exact Or.inl (h1 _ (by omega))
    · subst h; exact Or.inl (h1 _ (by omega))
    · subst h; exact Or.inl (h1 _ (by omega))
    · subst h; exact Or.inl (h1 _ (by omega))
    · exact ih x h
  | case2 a b N =>
    intro x hx
    have la := a.toNat_lt; have lb := b.toNat_lt
    simp only [List.mem_cons, List.not_mem_nil, or_false] at hx
    rcases hx with h | h | h | h
    · subst h; exact Or.inl (h1 _ (by omega))
    · subst h; exact Or.inl (h1 _ (by omega))
    · subst h; exact Or.inl (h1 _ (by omega))
    · exact Or.inr h
  | case3 a N =>
    intro x hx
    have la := a.toNat_lt
    simp only [List.mem_cons, List.not_mem_nil, or_false] at hx
    rcases hx with h | h | h | h
    · subst h; exact Or.inl (h1 _ (by omega))
    · subst h; exact Or.inl (h1 _ (by omega))
    · exact Or.inr h
    · exact Or.inr h
  | case4 => simp

/-- C25: `lcu_base64_encode_buf_size` is exactly the number of bytes the encoder writes. -/
theorem encodeBufSize_exact (n : Nat) (hint : (n + 2) / 3 * 4 + 1 < 2 ^ 31) :
    encodeBufSize n = (((n + 2) / 3 * 4 + 1 : Nat) : Int) := by
  unfold encodeBufSize
  have e1 : (n + 2) % 2 ^ 64 = n + 2 := Nat.mod_eq_of_lt (by omega)
  have e2 : ((n + 2) / 3 * 4 + 1) % 2 ^ 64 = (n + 2) / 3 * 4 + 1 := Nat.mod_eq_of_lt (by omega)
  rw [e1, e2, toInt32_small hint]

/-- A list with a non-alphabet character splits at the first one. -/
theorem split_first (src : List Byte) (h : ∃ c ∈ src, Spec.value c = none) :
    ∃ good stop rest, src = good ++ stop :: rest ∧ (∀ c ∈ good, (Spec.value c).isSome) ∧
      Spec.value stop = none := by
  induction src with
  | nil => simp at h
  | cons a l ih =>
    by_cases ha : Spec.value a = none
    · exact ⟨[], a, l, rfl, by simp, ha⟩
    · obtain ⟨c, hc, hv⟩ := h
      have hc' : c ∈ l := by
        rcases List.mem_cons.mp hc with h | h
        · subst h; exact absurd hv ha
        · exact h
      obtain ⟨g, s, r, e, hg, hs⟩ := ih ⟨c, hc', hv⟩
      refine ⟨a :: g, s, r, by rw [e]; rfl, ?_, hs⟩
      intro x hx
      rcases List.mem_cons.mp hx with h | h
      · subst h; exact Option.isSome_iff_ne_none.mpr ha
      · exact hg x h

theorem decode_length (good rest : List Byte) (stop : Byte)
    (hg : ∀ c ∈ good, (Spec.value c).isSome) (hstop : Spec.value stop = none) :
    (Spec.decode (good ++ stop :: rest)).length = good.length * 3 / 4 := by
  unfold Spec.decode
  rw [values_eq good stop rest hg hstop, spec_bytes_length]; simp [vals]

/-- C25 (decoder): for every source that contains some non-alphabet character (e.g. its NUL), and
every output object with room for the decoded bytes and a NUL, the decoder writes exactly the decoding
of the alphabet characters before the first other character, a NUL, nothing else, and returns the
exact number of decoded bytes. -/
theorem decode_spec (out src : Mem) (hterm : ∃ c ∈ src, Spec.value c = none)
    (hroom : (Spec.decode src).length + 1 ≤ out.length) :
    decode out src = some (Spec.decode src ++ 0 :: out.drop ((Spec.decode src).length + 1),
      ((Spec.decode src).length : Int)) := by
  obtain ⟨g, s, r, e, hg, hs⟩ := split_first src hterm
  subst e
  have hl := decode_length g r s hg hs
  rw [hl] at hroom ⊢
  exact decode_run out g r s hg hs hroom

/-- C25: a buffer of `lcu_base64_decode_buf_size (strlen text)` bytes always suffices for decoding the
C string `text`. -/
theorem decodeBufSize_enough (text after : List Byte) (hint : text.length < 2 ^ 31 - 8) :
    ((Spec.decode (text ++ 0 :: after)).length + 1 : Int) ≤ decodeBufSize text.length := by
  have e1 : (text.length + 3) % 2 ^ 64 = text.length + 3 := Nat.mod_eq_of_lt (by omega)
  have e2 : ((text.length + 3) / 4 * 3 + 1) % 2 ^ 64 = (text.length + 3) / 4 * 3 + 1 :=
    Nat.mod_eq_of_lt (by omega)
  unfold decodeBufSize
  rw [e1, e2, toInt32_small (by omega)]
  have hv0 : Spec.value 0 = none := by decide
  by_cases h : ∃ c ∈ text, Spec.value c = none
  · obtain ⟨g, s, r, e, hg, hs⟩ := split_first text h
    have e3 : text ++ 0 :: after = g ++ s :: (r ++ 0 :: after) := by rw [e]; simp
    have hlen : text.length = g.length + (r.length + 1) := by rw [e]; simp
    rw [e3, decode_length g _ s hg hs]
    omega
  · have hg : ∀ c ∈ text, (Spec.value c).isSome := by
      intro c hc
      rw [Option.isSome_iff_ne_none]
      exact fun hv => h ⟨c, hc, hv⟩
    rw [decode_length text after 0 hg hv0]
    omega

/-! ### round trip -/

theorem value_alpha : ∀ v : Fin 64, Spec.value (Spec.alpha v) = some v.val := by decide

theorem values_cons {v : Nat} (hv : v < 64) (s : List Byte) :
    Spec.values (Spec.alpha v :: s) = v :: Spec.values s := by
  have h := value_alpha ⟨v, hv⟩
  simp only at h
  simp [Spec.values, h]

theorem values_stop {c : Byte} (hc : Spec.value c = none) (s : List Byte) :
    Spec.values (c :: s) = [] := by
  simp [Spec.values, hc]

theorem ofNat_toNat {a : Byte} {x : Nat} (h : x % 256 = a.toNat) : UInt8.ofNat x = a := by
  apply UInt8.toNat_inj.mp; simpa using h

theorem spec_roundtrip (l after : List Byte) :
    Spec.decode (Spec.encode l ++ 0 :: after) = l := by
  unfold Spec.decode
  have hp : Spec.value Spec.pad = none := by decide
  have h0 : Spec.value 0 = none := by decide
  fun_induction Spec.encode l with
  | case1 a b c rest N ih =>
    have la := a.toNat_lt; have lb := b.toNat_lt; have lc := c.toNat_lt
    simp only [List.cons_append]
    rw [values_cons (by omega), values_cons (by omega), values_cons (by omega),
      values_cons (by omega)]
    simp only [Spec.bytes]
    rw [ih, ofNat_toNat (a := a) (by omega), ofNat_toNat (a := b) (by omega),
      ofNat_toNat (a := c) (by omega)]
  | case2 a b N =>
    have la := a.toNat_lt; have lb := b.toNat_lt
    simp only [List.cons_append]
    rw [values_cons (by omega), values_cons (by omega), values_cons (by omega), values_stop hp]
    simp only [Spec.bytes]
    rw [ofNat_toNat (a := a) (by omega), ofNat_toNat (a := b) (by omega)]
  | case3 a N =>
    have la := a.toNat_lt
    simp only [List.cons_append]
    rw [values_cons (by omega), values_cons (by omega), values_stop hp]
    simp only [Spec.bytes]
    rw [ofNat_toNat (a := a) (by omega)]
  | case4 => rw [List.nil_append, values_stop h0]; simp [Spec.bytes]

/-- C24: decoding the object the encoder wrote gives back exactly the bytes encoded, with the exact
length, for every byte string of at least two bytes and every pair of sufficiently large buffers. -/
theorem roundtrip (src out out2 : Mem) (h2 : 2 ≤ src.length)
    (hroom : (src.length + 2) / 3 * 4 + 1 ≤ out.length) (hroom2 : src.length + 1 ≤ out2.length) :
    ∃ enc r, encode out src src.length = some (enc, r) ∧
      decode out2 enc = some (src ++ 0 :: out2.drop (src.length + 1), (src.length : Int)) := by
  refine ⟨_, _, encode_run out src src.length (Nat.le_refl _) h2 hroom, ?_⟩
  have hr := spec_roundtrip src (out.drop ((src.length + 2) / 3 * 4 + 1))
  rw [List.take_length]
  rw [decode_spec out2 _ ⟨0, by simp, by decide⟩ (by rw [hr]; exact hroom2), hr]

/-! ### witnesses -/

/-- "Man\x00\xff" encodes to "TWFuAP8=" in a 9-byte buffer of 10, and back. -/
example : encode (List.replicate 10 7) [77, 97, 110, 0, 255] 5 =
    some ([84, 87, 70, 117, 65, 80, 56, 61, 0, 7], 9) := by decide +kernel
example : decode (List.replicate 10 7) [84, 87, 70, 117, 65, 80, 56, 61, 0, 7] =
    some ([77, 97, 110, 0, 255, 0, 7, 7, 7, 7], 5) := by decide +kernel
/-- One byte too few in the output object and the encoder leaves it (the size is exact). -/
example : encode (List.replicate 8 7) [77, 97, 110, 0, 255] 5 = none := by decide +kernel
/-- Nothing to stop at: the decoder runs off the source. -/
example : decode (List.replicate 8 7) [84, 87, 70, 117] = none := by decide +kernel

end Verif.Base64
