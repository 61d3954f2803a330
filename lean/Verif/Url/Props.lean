import Verif.Url.Model
import Verif.Url.Spec
/-!
# Theorems about url_encoder_decoder.c (C26, C27)

`Mem.front out w` is the object `out` with `w` written over its front; everything behind is unchanged.
-/
namespace Verif.Url
open Spec (Decodes Malformed CutEscape hexVal hexChar esc Unreserved)

/-! ### per-byte facts (finite: the 256 bytes) -/

theorem isSafe_iff : ∀ c : Byte, isSafe c = true ↔ Unreserved c := by
  apply byte_all; decide +kernel
theorem sc_space : ∀ c : Byte, sc c = 32 ↔ c = 32 := by apply byte_all; decide +kernel
theorem sc_plus : ∀ c : Byte, sc c = 43 ↔ c = 43 := by apply byte_all; decide +kernel
theorem sc_pct : ∀ c : Byte, sc c = 37 ↔ c = 37 := by apply byte_all; decide +kernel
theorem hexDigit_eq : ∀ c : Byte, hexDigit c = hexVal c := by apply byte_all; decide +kernel
theorem hexVal_lt : ∀ c : Byte, (hexVal c).getD 0 < 16 := by apply byte_all; decide +kernel
theorem hi_char : ∀ c : Byte, hexchars[c.toNat >>> 4]? = some (hexChar (c.toNat / 16)) := by
  apply byte_all; decide +kernel
theorem lo_char : ∀ c : Byte, hexchars[c.toNat &&& 0xF]? = some (hexChar (c.toNat % 16)) := by
  apply byte_all; decide +kernel
theorem hexVal_hi : ∀ c : Byte, hexVal (hexChar (c.toNat / 16)) = some (c.toNat / 16) := by
  apply byte_all; decide +kernel
theorem hexVal_lo : ∀ c : Byte, hexVal (hexChar (c.toNat % 16)) = some (c.toNat % 16) := by
  apply byte_all; decide +kernel
theorem esc_length_pos (c : Byte) : 1 ≤ (esc c).length := by
  unfold esc; split
  · simp
  · split <;> simp

theorem take_succ_of_get {src : Mem} {i : Nat} {c : Byte} (h : src[i]? = some c) :
    src.take (i + 1) = src.take i ++ [c] := by
  rw [List.take_add_one, h]; rfl

theorem encode_snoc (s : List Byte) (c : Byte) :
    Spec.encode (s ++ [c]) = Spec.encode s ++ esc c := by
  simp [Spec.encode, List.flatMap_append]

theorem encode_take_prefix (src : Mem) {i n : Nat} (h : i ≤ n) :
    Spec.encode (src.take i) <+: Spec.encode (src.take n) := by
  obtain ⟨t, ht⟩ : src.take i <+: src.take n := List.take_prefix_take_left (by omega)
  rw [← ht]
  exact ⟨Spec.encode t, by simp [Spec.encode, List.flatMap_append]⟩

/-- What the encoder may do: succeed with the whole text when it fits, otherwise fail with `-2`/`-3`
leaving a fitting prefix of the text in the buffer. -/
def EncOk (out : Mem) (size : Nat) (text : List Byte) (res : Option (Mem × Int)) : Prop :=
  (text.length + 1 ≤ size ∧ res = some (out.front (text ++ [0]), (text.length : Int))) ∨
  (size < text.length + 1 ∧ ∃ w r, res = some (out.front w, r) ∧ (r = -2 ∨ r = -3) ∧
    w <+: text ∧ w.length < size)

theorem enc_loop (orig : Mem) (size : Nat) (src : Mem) (n : Nat) (hn : n ≤ src.length)
    (h1 : 1 ≤ n) (h2 : 2 ≤ size) (hs : size ≤ orig.length) :
    ∀ (fuel i : Nat), i ≤ n → n < fuel + i → (Spec.encode (src.take i)).length < size →
      EncOk orig size (Spec.encode (src.take n))
        (encLoop size src n fuel i (Spec.encode (src.take i)).length
          (orig.front (Spec.encode (src.take i)))) := by
  intro fuel
  induction fuel with
  | zero => intro i h3 h4; omega
  | succ fuel ih =>
    intro i hi hf ho
    have hpre := encode_take_prefix src hi
    unfold encLoop
    by_cases ht : i < n ∧ (Spec.encode (src.take i)).length < size - 1
    · rw [if_pos ht]
      have hlt : i < src.length := by omega
      have hg : src[i]? = some src[i] := by simp [hlt]
      generalize src[i] = c at hg
      rw [hg]
      simp only
      have hsn : Spec.encode (src.take (i + 1)) = Spec.encode (src.take i) ++ esc c := by
        rw [take_succ_of_get hg, encode_snoc]
      by_cases hsafe : isSafe c = true
      · rw [if_pos hsafe, Mem.poke_front _ (by omega)]
        simp only
        have he : esc c = [c] := by unfold esc; rw [if_pos ((isSafe_iff c).mp hsafe)]
        have := ih (i + 1) (by omega) (by omega) (by rw [hsn, he]; simp; omega)
        rw [hsn, he] at this
        simpa using this
      · rw [if_neg hsafe]
        have hns : ¬ Unreserved c := fun h => hsafe ((isSafe_iff c).mpr h)
        by_cases hsp : sc c = 32
        · rw [if_pos hsp, Mem.poke_front _ (by omega)]
          simp only
          have he : esc c = [43] := by unfold esc; rw [if_neg hns, if_pos ((sc_space c).mp hsp)]
          have := ih (i + 1) (by omega) (by omega) (by rw [hsn, he]; simp; omega)
          rw [hsn, he] at this
          simpa using this
        · rw [if_neg hsp]
          have he : esc c = [37, hexChar (c.toNat / 16), hexChar (c.toNat % 16)] := by
            unfold esc; rw [if_neg hns, if_neg (fun h => hsp ((sc_space c).mpr h))]
          by_cases h3 : (Spec.encode (src.take i)).length + 3 < size
          · rw [if_pos h3]
            simp only [hi_char, lo_char, Option.bind_eq_bind, Option.bind_some]
            rw [Mem.poke_front _ (by omega), Option.bind_some,
              Mem.poke_front' _ (by simp) (by simp; omega), Option.bind_some,
              Mem.poke_front' _ (by simp) (by simp; omega), Option.bind_some]
            have := ih (i + 1) (by omega) (by omega) (by rw [hsn, he]; simp; omega)
            rw [hsn, he] at this
            simpa using this
          · rw [if_neg h3]
            right
            have hp2 := encode_take_prefix src (show i + 1 ≤ n by omega)
            have hl := hp2.length_le
            rw [hsn, he] at hl
            simp at hl
            exact ⟨by omega, _, _, rfl, Or.inl rfl, hpre, by omega⟩
    · rw [if_neg ht]
      have hi0 : i ≠ 0 := by
        intro h
        apply ht
        subst h
        simp [Spec.encode]; omega
      rw [if_neg hi0]
      by_cases hin : i = n
      · rw [if_pos hin]
        left
        subst hin
        refine ⟨by omega, ?_⟩
        rw [Mem.poke_front _ (by omega)]
        rfl
      · rw [if_neg hin]
        right
        have hlt : i < src.length := by omega
        have hg : src[i]? = some src[i] := by simp [hlt]
        have hsn : Spec.encode (src.take (i + 1)) = Spec.encode (src.take i) ++ esc src[i] := by
          rw [take_succ_of_get hg, encode_snoc]
        have hl := (encode_take_prefix src (show i + 1 ≤ n by omega)).length_le
        rw [hsn, List.length_append] at hl
        have := esc_length_pos src[i]
        exact ⟨by omega, _, _, rfl, Or.inr rfl, hpre, by omega⟩

/-- C27 (encoder, room): if the encoded text and its NUL fit, exactly they are written, nothing else
changes, and the text's length is returned. -/
theorem encode_fits (out : Mem) (size : Nat) (src : Mem) (n : Nat) (hn : n ≤ src.length)
    (h1 : 1 ≤ n) (h2 : 2 ≤ size) (hs : size ≤ out.length)
    (hroom : (Spec.encode (src.take n)).length + 1 ≤ size) :
    encode out size src n = some (out.front (Spec.encode (src.take n) ++ [0]),
      ((Spec.encode (src.take n)).length : Int)) := by
  unfold encode
  rw [if_neg (by omega)]
  have := enc_loop out size src n hn h1 h2 hs (n + 1) 0 (by omega) (by omega)
    (by simp [Spec.encode]; omega)
  have e : Spec.encode (src.take 0) = [] := by simp [Spec.encode]
  rw [e, Mem.front_nil] at this
  rcases this with ⟨_, h⟩ | ⟨h, _⟩
  · exact h
  · omega

/-- C27 (encoder, no room): if it does not fit the call fails with a negative code, and what was
written lies inside `out[0..size)` (a prefix of the text). Truncated output is never reported as
success. -/
theorem encode_too_small (out : Mem) (size : Nat) (src : Mem) (n : Nat) (hn : n ≤ src.length)
    (h1 : 1 ≤ n) (h2 : 2 ≤ size) (hs : size ≤ out.length)
    (hroom : size < (Spec.encode (src.take n)).length + 1) :
    ∃ w r, encode out size src n = some (out.front w, r) ∧ (r = -2 ∨ r = -3) ∧
      w <+: Spec.encode (src.take n) ∧ w.length < size := by
  unfold encode
  rw [if_neg (by omega)]
  have := enc_loop out size src n hn h1 h2 hs (n + 1) 0 (by omega) (by omega)
    (by simp [Spec.encode]; omega)
  have e : Spec.encode (src.take 0) = [] := by simp [Spec.encode]
  rw [e, Mem.front_nil] at this
  rcases this with ⟨h, _⟩ | ⟨_, h⟩
  · omega
  · exact h

/-- C27: an empty input or a buffer below two bytes is refused with `-1`, and nothing is written. -/
theorem encode_refused (out : Mem) (size : Nat) (src : Mem) (n : Nat) (h : n < 1 ∨ size < 2) :
    encode out size src n = some (out, -1) := by
  unfold encode; rw [if_pos h]

/-- C27: `3*n+1` bytes always suffice. -/
theorem encode_length_le (s : List Byte) : (Spec.encode s).length ≤ 3 * s.length := by
  induction s with
  | nil => simp [Spec.encode]
  | cons a l ih =>
    have : (esc a).length ≤ 3 := by
      unfold esc; split
      · simp
      · split <;> simp
    simp only [Spec.encode, List.flatMap_cons, List.length_append, List.length_cons] at ih ⊢
    omega

/-- C26: the encoded text consists only of unreserved characters, `+`, `%` and upper-case hex digits
(all other than `+`, `%` being unreserved). -/
theorem encode_alphabet (s : List Byte) : ∀ c ∈ Spec.encode s, Unreserved c ∨ c = 43 ∨ c = 37 := by
  have hx : ∀ v : Fin 16, Unreserved (hexChar v) := by decide
  intro c hc
  simp only [Spec.encode, List.mem_flatMap] at hc
  obtain ⟨a, _, ha⟩ := hc
  have hlt := a.toNat_lt
  unfold esc at ha
  split at ha
  · rename_i h
    simp only [List.mem_singleton] at ha; subst ha; exact Or.inl h
  · split at ha
    · simp only [List.mem_singleton] at ha; exact Or.inr (Or.inl ha)
    · simp only [List.mem_cons, List.not_mem_nil, or_false] at ha
      rcases ha with h | h | h
      · exact Or.inr (Or.inr h)
      · subst h; exact Or.inl (hx ⟨a.toNat / 16, by omega⟩)
      · subst h; exact Or.inl (hx ⟨a.toNat % 16, by omega⟩)

/-! ### the decoder -/

/-- What the decoder may do with source text `s` in a buffer of `size` bytes. -/
def DecOk (out : Mem) (size : Nat) (s : List Byte) (res : Option DecRes) : Prop :=
  ∃ e d rest, s = e ++ rest ∧ Decodes e d ∧
    ((d.length + 1 ≤ size ∧ (rest = [] ∨ d.length + 1 = size ∨ CutEscape rest) ∧
        res = some (out.front (d ++ [0]), (d.length : Int), e.length)) ∨
     (d.length + 1 < size ∧ Malformed rest ∧ res = some (out.front d, -2, 0)))

theorem drop_cons {src : Mem} {n i : Nat} (hi : i < n) {c : Byte}
    (hg : src[i]? = some c) : (src.take n).drop i = c :: (src.take n).drop (i + 1) := by
  obtain ⟨h, e⟩ := List.getElem?_eq_some_iff.mp hg
  rw [List.drop_eq_getElem_cons (by simp; omega)]
  simp [e]

theorem split_at (src : Mem) (n i : Nat) : src.take n = (src.take n).take i ++ (src.take n).drop i :=
  (List.take_append_drop i _).symm

theorem or_nib {x y : Nat} (hy : y < 16) : (x <<< 4) ||| y = x * 16 + y := by
  rw [← Nat.shiftLeft_add_eq_or_of_lt (i := 4) (by omega), Nat.shiftLeft_eq]

theorem dec_loop (orig : Mem) (size : Nat) (src : Mem) (n : Nat) (hn : n ≤ src.length)
    (h2 : 2 ≤ size) (hs : size ≤ orig.length) :
    ∀ (fuel i : Nat) (d : List Byte), i ≤ n → n < fuel + i → d.length < size →
      Decodes ((src.take n).take i) d →
      DecOk orig size (src.take n) (decLoop size src n fuel i d.length (orig.front d)) := by
  intro fuel
  induction fuel with
  | zero => intro i d h3 h4; omega
  | succ fuel ih =>
    intro i d hi hf ho hd
    have hlen : ((src.take n).take i).length = i := by simp; omega
    unfold decLoop
    by_cases ht : i < n ∧ d.length < size - 1
    · rw [if_pos ht]
      have hlt : i < src.length := by omega
      have hg : src[i]? = some src[i] := by simp [hlt]
      generalize src[i] = c at hg
      rw [hg]
      simp only
      have hdr := drop_cons ht.1 hg
      have htk : (src.take n).take (i + 1) = (src.take n).take i ++ [c] := by
        rw [List.take_add_one, List.getElem?_take_of_lt ht.1, hg]; rfl
      by_cases hplus : sc c = 43
      · have hc := (sc_plus c).mp hplus
        rw [if_pos hplus, Mem.poke_front _ (by omega)]
        simp only
        have := ih (i + 1) (d ++ [32]) (by omega) (by omega) (by simp; omega)
          (by rw [htk, hc]; exact Decodes.plus hd)
        simpa using this
      · rw [if_neg hplus]
        by_cases hp : sc c = 37
        · have hc := (sc_pct c).mp hp
          rw [if_pos hp]
          by_cases h3 : i + 3 ≤ n
          · rw [if_pos h3]
            have hga : src[i + 1]? = some (src[i + 1]'(by omega)) := by
              rw [List.getElem?_eq_getElem]
            have hgb : src[i + 2]? = some (src[i + 2]'(by omega)) := by
              rw [List.getElem?_eq_getElem]
            generalize src[i + 1]'(by omega) = a at hga
            generalize src[i + 2]'(by omega) = b at hgb
            have hda := drop_cons (show i + 1 < n by omega) hga
            have hdb := drop_cons (show i + 2 < n by omega) hgb
            rw [hga]
            simp only [hexDigit_eq]
            cases hva : hexVal a with
            | none =>
              simp only
              refine ⟨_, d, _, split_at src n i, hd, Or.inr ⟨by omega, ?_, rfl⟩⟩
              rw [hdr, hda, hdb]
              exact ⟨c, _, rfl, Or.inr ⟨hc, a, b, _, rfl, Or.inl hva⟩⟩
            | some x =>
              simp only [hgb]
              cases hvb : hexVal b with
              | none =>
                simp only
                refine ⟨_, d, _, split_at src n i, hd, Or.inr ⟨by omega, ?_, rfl⟩⟩
                rw [hdr, hda, hdb]
                exact ⟨c, _, rfl, Or.inr ⟨hc, a, b, _, rfl, Or.inr hvb⟩⟩
              | some y =>
                simp only
                have hy : y < 16 := by have := hexVal_lt b; rw [hvb] at this; exact this
                rw [Mem.poke_front _ (by omega), or_nib hy]
                simp only
                have htk3 : (src.take n).take (i + 3) = (src.take n).take i ++ [37, a, b] := by
                  rw [List.take_add_one, List.getElem?_take_of_lt (by omega), hgb,
                    List.take_add_one, List.getElem?_take_of_lt (by omega), hga, htk, hc]
                  simp
                have := ih (i + 3) (d ++ [UInt8.ofNat (x * 16 + y)]) (by omega) (by omega)
                  (by simp; omega) (by rw [htk3]; exact Decodes.pct hd hva hvb)
                rw [List.length_append] at this
                exact this
          · rw [if_neg h3]
            unfold decEnd
            rw [Mem.poke_front _ (by omega)]
            refine ⟨_, d, _, split_at src n i, hd,
              Or.inl ⟨by omega, Or.inr (Or.inr ?_), by rw [hlen]⟩⟩
            rw [hdr, hc]
            have hl : ((src.take n).drop (i + 1)).length = n - (i + 1) := by simp; omega
            cases hq : (src.take n).drop (i + 1) with
            | nil => exact Or.inl rfl
            | cons a t =>
              rw [hq] at hl
              cases t with
              | nil => exact Or.inr ⟨a, rfl⟩
              | cons b t => simp at hl; omega
        · rw [if_neg hp]
          have hc37 : c ≠ 37 := fun h => hp ((sc_pct c).mpr h)
          have hc43 : c ≠ 43 := fun h => hplus ((sc_plus c).mpr h)
          by_cases hsafe : isSafe c = true
          · rw [if_pos hsafe, Mem.poke_front _ (by omega)]
            simp only
            have := ih (i + 1) (d ++ [c]) (by omega) (by omega) (by simp; omega)
              (by rw [htk]; exact Decodes.plain hd ((isSafe_iff c).mp hsafe))
            simpa using this
          · rw [if_neg hsafe]
            refine ⟨_, d, _, split_at src n i, hd, Or.inr ⟨by omega, ?_, rfl⟩⟩
            rw [hdr]
            exact ⟨c, _, rfl, Or.inl ⟨hc37, hc43, fun h => hsafe ((isSafe_iff c).mpr h)⟩⟩
    · rw [if_neg ht]
      unfold decEnd
      rw [Mem.poke_front _ (by omega)]
      refine ⟨_, d, _, split_at src n i, hd, Or.inl ⟨by omega, ?_, by rw [hlen]⟩⟩
      by_cases hin : i < n
      · exact Or.inr (Or.inl (by omega))
      · left
        apply List.drop_eq_nil_of_le
        simp; omega

/-- C27 (decoder): for every source and every buffer, the decoder consumes a front `e` of the source
that stands for bytes `d`, never writing outside `out[0..size)`, and either
 * succeeds with `d` and a NUL in the buffer and `*last_src_pos` behind `e`, having stopped only because
   the source ended, the buffer is full, or the rest is a cut-off escape; or
 * returns `-2` because the rest of the source starts with something malformed. -/
theorem decode_spec (out : Mem) (size : Nat) (src : Mem) (n : Nat) (hn : n ≤ src.length)
    (h1 : 1 ≤ n) (h2 : 2 ≤ size) (hs : size ≤ out.length) :
    ∃ e d rest, src.take n = e ++ rest ∧ Decodes e d ∧
      ((d.length + 1 ≤ size ∧ (rest = [] ∨ d.length + 1 = size ∨ CutEscape rest) ∧
          decode out size src n = some (out.front (d ++ [0]), (d.length : Int), e.length)) ∨
       (d.length + 1 < size ∧ Malformed rest ∧ decode out size src n = some (out.front d, -2, 0))) := by
  have := dec_loop out size src n hn h2 hs (n + 1) 0 [] (by omega) (by omega) (by simp; omega)
    (by simpa using Decodes.nil)
  rw [Mem.front_nil] at this
  unfold decode
  rw [if_neg (by omega)]
  exact this

/-- C27: an empty source or a buffer below two bytes is refused with `-1`. -/
theorem decode_refused (out : Mem) (size : Nat) (src : Mem) (n : Nat) (h : n < 1 ∨ size < 2) :
    decode out size src n = some (out, -1, 0) := by
  unfold decode; rw [if_pos h]

/-! ### `Decodes` is a function, from the front -/

theorem decodes_cons {c : Byte} {e d : List Byte} (h : Decodes e d) :
    (Unreserved c → Decodes (c :: e) (c :: d)) ∧ (Decodes (43 :: e) (32 :: d)) ∧
    (∀ a b x y, hexVal a = some x → hexVal b = some y →
      Decodes (37 :: a :: b :: e) (UInt8.ofNat (x * 16 + y) :: d)) := by
  induction h with
  | nil =>
    refine ⟨fun h => Decodes.plain .nil h, Decodes.plus .nil, fun a b x y ha hb => Decodes.pct .nil ha hb⟩
  | plain _ hu ih =>
    exact ⟨fun h => Decodes.plain (ih.1 h) hu, Decodes.plain ih.2.1 hu,
      fun a b x y ha hb => Decodes.plain (ih.2.2 a b x y ha hb) hu⟩
  | plus _ ih =>
    exact ⟨fun h => Decodes.plus (ih.1 h), Decodes.plus ih.2.1,
      fun a b x y ha hb => Decodes.plus (ih.2.2 a b x y ha hb)⟩
  | pct _ ha' hb' ih =>
    exact ⟨fun h => Decodes.pct (ih.1 h) ha' hb', Decodes.pct ih.2.1 ha' hb',
      fun a b x y ha hb => Decodes.pct (ih.2.2 a b x y ha hb) ha' hb'⟩

/-- One unit at the front, then the rest. -/
inductive Front : List Byte → List Byte → Prop
  | nil : Front [] []
  | plain {c e d} : Unreserved c → Front e d → Front (c :: e) (c :: d)
  | plus {e d} : Front e d → Front (43 :: e) (32 :: d)
  | pct {a b x y e d} : hexVal a = some x → hexVal b = some y → Front e d →
      Front (37 :: a :: b :: e) (UInt8.ofNat (x * 16 + y) :: d)

theorem front_append {e d e2 d2 : List Byte} (h : Front e d) (h2 : Front e2 d2) :
    Front (e ++ e2) (d ++ d2) := by
  induction h with
  | nil => exact h2
  | plain hu _ ih => exact Front.plain hu ih
  | plus _ ih => exact Front.plus ih
  | pct ha hb _ ih => exact Front.pct ha hb ih

theorem front_of_decodes {e d : List Byte} (h : Decodes e d) : Front e d := by
  induction h with
  | nil => exact .nil
  | plain _ hu ih => exact front_append ih (Front.plain hu .nil)
  | plus _ ih => exact front_append ih (Front.plus .nil)
  | pct _ ha hb ih => exact front_append ih (Front.pct ha hb .nil)

theorem decodes_of_front {e d : List Byte} (h : Front e d) : Decodes e d := by
  induction h with
  | nil => exact .nil
  | plain hu _ ih => exact (decodes_cons ih).1 hu
  | plus _ ih => exact (decodes_cons (c := 0) ih).2.1
  | pct ha hb _ ih => exact (decodes_cons (c := 0) ih).2.2 _ _ _ _ ha hb

theorem unres_ne {c : Byte} (h : Unreserved c) : c ≠ 37 ∧ c ≠ 43 := by
  constructor <;> (intro h2; subst h2; revert h; decide)

/-- If all of `s = e ++ rest` is well formed then so is `rest`, and the meanings agree. -/
theorem front_split {e d : List Byte} (h : Front e d) :
    ∀ {rest w}, Front (e ++ rest) w → ∃ w2, w = d ++ w2 ∧ Front rest w2 := by
  induction h with
  | nil => intro rest w hw; exact ⟨w, rfl, hw⟩
  | @plain c e d hu _ ih =>
    intro rest w hw
    rw [List.cons_append] at hw
    have hne := unres_ne hu
    generalize hq : e ++ rest = q at hw
    cases hw with
    | plain hu2 h2 =>
      subst hq
      obtain ⟨w2, rfl, h3⟩ := ih h2; exact ⟨w2, rfl, h3⟩
    | plus h2 => exact absurd rfl hne.2
    | pct ha hb h2 => exact absurd rfl hne.1
  | @plus e d _ ih =>
    intro rest w hw
    rw [List.cons_append] at hw
    generalize hq : e ++ rest = q at hw
    cases hw with
    | plain hu2 h2 => exact absurd rfl (unres_ne hu2).2
    | plus h2 =>
      subst hq
      obtain ⟨w2, rfl, h3⟩ := ih h2; exact ⟨w2, rfl, h3⟩
  | @pct a b x y e d ha hb _ ih =>
    intro rest w hw
    rw [List.cons_append, List.cons_append, List.cons_append] at hw
    cases hw with
    | plain hu2 h2 => exact absurd rfl (unres_ne hu2).1
    | pct ha2 hb2 h2 =>
      rw [ha] at ha2; rw [hb] at hb2
      cases ha2; cases hb2
      obtain ⟨w2, rfl, h3⟩ := ih h2; exact ⟨w2, rfl, h3⟩

theorem front_not_malformed {r w : List Byte} (h : Front r w) : ¬ Malformed r ∧ ¬ CutEscape r := by
  cases h with
  | nil => exact ⟨by rintro ⟨c, t, h, _⟩; simp at h, by rintro (h | ⟨a, h⟩) <;> simp at h⟩
  | @plain c e d hu h2 =>
    have hne := unres_ne hu
    constructor
    · rintro ⟨c', t, h, h3⟩
      injection h with hc ht
      subst hc
      rcases h3 with ⟨_, _, h4⟩ | ⟨h4, _⟩
      · exact h4 hu
      · exact hne.1 h4
    · rintro (h | ⟨a, h⟩) <;> (injection h with h _; exact hne.1 h)
  | @plus e d h2 =>
    constructor
    · rintro ⟨c', t, h, h3⟩
      injection h with hc ht
      subst hc
      rcases h3 with ⟨_, h4, _⟩ | ⟨h4, _⟩
      · exact h4 rfl
      · revert h4; decide
    · rintro (h | ⟨a, h⟩) <;> (injection h with h _; revert h; decide)
  | @pct a b x y e d ha hb h2 =>
    constructor
    · rintro ⟨c', t, h, h3⟩
      injection h with hc ht
      subst hc
      rcases h3 with ⟨h4, _⟩ | ⟨_, a', b', t', h5, h6⟩
      · exact h4 rfl
      · rw [h5] at ht
        injection ht with e1 ht; injection ht with e2 ht
        subst e1; subst e2
        rw [ha, hb] at h6
        simp at h6
    · rintro (h | ⟨a, h⟩) <;> simp at h

theorem front_length {e d : List Byte} (h : Front e d) : d.length ≤ e.length := by
  induction h with
  | nil => simp
  | plain _ _ ih => simp; omega
  | plus _ ih => simp; omega
  | pct _ _ _ ih => simp; omega

/-- C27: the meaning of an encoded text is unique. -/
theorem decodes_unique {e d d' : List Byte} (h : Decodes e d) (h' : Decodes e d') : d = d' := by
  have h1 := front_of_decodes h
  have h2 := front_of_decodes h'
  have h3 : Front (e ++ []) d' := by simpa using h2
  obtain ⟨w, rfl, h4⟩ := front_split h1 h3
  cases h4; simp

/-- C27: a well-formed source that fits is decoded completely. -/
theorem decode_complete (out : Mem) (size : Nat) (src : Mem) (n : Nat) (hn : n ≤ src.length)
    (h1 : 1 ≤ n) (h2 : 2 ≤ size) (hs : size ≤ out.length) (w : List Byte)
    (hw : Decodes (src.take n) w) (hroom : w.length + 1 ≤ size) :
    decode out size src n = some (out.front (w ++ [0]), (w.length : Int), n) := by
  obtain ⟨e, d, rest, he, hd, h⟩ := decode_spec out size src n hn h1 h2 hs
  have hf := front_of_decodes hw
  rw [he] at hf
  obtain ⟨w2, hw2, hr⟩ := front_split (front_of_decodes hd) hf
  have hnm := front_not_malformed hr
  rcases h with ⟨h3, h4, h5⟩ | ⟨_, h4, _⟩
  · have hrest : rest = [] := by
      rcases h4 with h4 | h4 | h4
      · exact h4
      · have : w2 = [] := by
          rw [hw2] at hroom
          simp at hroom
          apply List.eq_nil_of_length_eq_zero; omega
        rw [this] at hr
        cases hr; rfl
      · exact absurd h4 hnm.2
    rw [hrest] at hr he
    cases hr
    rw [List.append_nil] at hw2 he
    rw [h5, hw2, ← he]
    simp; omega
  · exact absurd h4 hnm.1

/-- C27: `n+1` bytes always suffice for decoding. -/
theorem decoded_length_le {e d : List Byte} (h : Decodes e d) : d.length ≤ e.length :=
  front_length (front_of_decodes h)

/-- The encoded text stands for the encoded bytes. -/
theorem decodes_encode (s : List Byte) : Decodes (Spec.encode s) s := by
  apply decodes_of_front
  induction s with
  | nil => exact .nil
  | cons c l ih =>
    have : Spec.encode (c :: l) = esc c ++ Spec.encode l := rfl
    rw [this]
    refine front_append (d := [c]) ?_ ih
    unfold esc
    split
    · rename_i h; exact Front.plain h .nil
    · split
      · rename_i h; subst h; exact Front.plus .nil
      · have h := Front.pct (hexVal_hi c) (hexVal_lo c) Front.nil
        have e : c.toNat / 16 * 16 + c.toNat % 16 = c.toNat := by omega
        rw [e] at h
        simpa using h

/-- C26: for every non-empty byte string and buffers of the advised sizes, encoding succeeds and
decoding the encoded text gives back exactly the original bytes. -/
theorem roundtrip (src out out2 : Mem) (size size2 : Nat) (h1 : 1 ≤ src.length)
    (hs : size ≤ out.length) (hs2 : size2 ≤ out2.length)
    (hroom : 3 * src.length + 1 ≤ size) (hroom2 : src.length + 1 ≤ size2) :
    ∃ enc len, encode out size src src.length = some (enc, ((len : Nat) : Int)) ∧
      decode out2 size2 enc len = some (out2.front (src ++ [0]), (src.length : Int), len) := by
  have hle := encode_length_le src
  refine ⟨out.front (Spec.encode src ++ [0]), (Spec.encode src).length, ?_, ?_⟩
  · have := encode_fits out size src src.length (Nat.le_refl _) h1 (by omega) hs
      (by rw [List.take_length]; omega)
    rw [List.take_length] at this
    exact this
  · have h1' : 1 ≤ (Spec.encode src).length := by
      cases src with
      | nil => simp at h1
      | cons a l =>
        have := esc_length_pos a
        simp [Spec.encode] at this ⊢
        omega
    have htk : (out.front (Spec.encode src ++ [0])).take (Spec.encode src).length = Spec.encode src := by
      unfold Mem.front; simp
    apply decode_complete _ _ _ _ _ h1' (by omega) hs2 src _ hroom2
    · unfold Mem.front; simp
    · rw [htk]; exact decodes_encode src

/-! ### witnesses -/

/-- "a b%\xff" ↦ "a+b%25%FF". -/
example : encode (List.replicate 12 7) 10 [97, 32, 98, 37, 255] 5 =
    some ([97, 43, 98, 37, 50, 53, 37, 70, 70, 0, 7, 7], 9) := by decide +kernel
/-- One byte less: refused. -/
example : (encode (List.replicate 12 7) 9 [97, 32, 98, 37, 255] 5).map Prod.snd = some (-2) := by
  decide +kernel
example : decode (List.replicate 6 7) 6 [97, 43, 98, 37, 50, 53, 37, 70, 102] 9 =
    some ([97, 32, 98, 37, 255, 0], 5, 9) := by decide +kernel
/-- FINDING: a decode buffer that is too small is not an error: the prefix that fits is returned as
success (only `last_src_pos` tells). -/
example : decode (List.replicate 4 7) 3 [97, 43, 98, 37, 50, 53] 6 = some ([97, 32, 0, 7], 2, 2) := by
  decide +kernel

end Verif.Url
