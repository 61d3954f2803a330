import Verif.StrParams.Long
/-!
# Which texts `str_params_get_long` accepts (C36)
-/
namespace Verif.StrParams.Spec

/-- value of a hexadecimal digit -/
def hexVal (c : Byte) : Nat :=
  if c.toNat ≤ 57 then c.toNat - 48 else if c.toNat ≤ 70 then c.toNat - 55 else c.toNat - 87

/-- hexadecimal digits `0-9 A-F a-f` -/
def isHex (c : Byte) : Prop :=
  (48 ≤ c.toNat ∧ c.toNat ≤ 57) ∨ (65 ≤ c.toNat ∧ c.toNat ≤ 70) ∨ (97 ≤ c.toNat ∧ c.toNat ≤ 102)

/-- the C notation of a natural number: decimal, octal with leading `0`, hexadecimal with `0x` or `0X` -/
inductive IsNat : List Byte → Nat → Prop
  | dec (c : Byte) (ds : List Byte) (hc : 49 ≤ c.toNat ∧ c.toNat ≤ 57) (hd : ∀ d ∈ ds, 48 ≤ d.toNat ∧ d.toNat ≤ 57) :
      IsNat (c :: ds) ((c :: ds).foldl (fun a d => a * 10 + (d.toNat - 48)) 0)
  | oct (ds : List Byte) (hd : ∀ d ∈ ds, 48 ≤ d.toNat ∧ d.toNat ≤ 55) :
      IsNat (48 :: ds) (ds.foldl (fun a d => a * 8 + (d.toNat - 48)) 0)
  | hex (x : Byte) (ds : List Byte) (hx : x = 120 ∨ x = 88) (hne : ds ≠ []) (hd : ∀ d ∈ ds, isHex d) :
      IsNat (48 :: x :: ds) (ds.foldl (fun a d => a * 16 + hexVal d) 0)

/-- an integer: white space, optional sign, natural number -/
inductive IsInt : List Byte → Int → Prop
  | plain (ws b : List Byte) (v : Nat) (hw : ∀ c ∈ ws, c = 32 ∨ (9 ≤ c.toNat ∧ c.toNat ≤ 13)) (hb : IsNat b v) :
      IsInt (ws ++ b) v
  | plus (ws b : List Byte) (v : Nat) (hw : ∀ c ∈ ws, c = 32 ∨ (9 ≤ c.toNat ∧ c.toNat ≤ 13)) (hb : IsNat b v) :
      IsInt (ws ++ 43 :: b) v
  | minus (ws b : List Byte) (v : Nat) (hw : ∀ c ∈ ws, c = 32 ∨ (9 ≤ c.toNat ∧ c.toNat ≤ 13)) (hb : IsNat b v) :
      IsInt (ws ++ 45 :: b) (-(v : Int))

/-- the nearest `long` -/
def toLong (n : Int) : Int := max (-2 ^ 63) (min n (2 ^ 63 - 1))

end Verif.StrParams.Spec

namespace Verif.StrParams
open Spec
open Verif.Hashmap (Ptr)

theorem digits_all (base : Nat) (val : Byte → Nat) (l : List Byte)
    (h : ∀ c ∈ l, digitVal c = some (val c) ∧ val c < base) : ∀ acc,
    digits base acc l = (l.foldl (fun a c => a * base + val c) acc, []) := by
  induction l with
  | nil => intro acc; rfl
  | cons c l ih =>
    intro acc
    obtain ⟨h1, h2⟩ := h c (by simp)
    unfold digits
    simp only [h1]
    rw [if_pos h2, ih (fun c hc => h c (by simp [hc]))]
    rfl

theorem digits_rest {base : Nat} {l : List Byte} : ∀ {acc}, (digits base acc l).2 = [] →
    ∀ c ∈ l, ∃ d, digitVal c = some d ∧ d < base := by
  induction l with
  | nil => intro acc _ c hc; simp at hc
  | cons c l ih =>
    intro acc h
    unfold digits at h
    cases hd : digitVal c with
    | none => rw [hd] at h; simp at h
    | some d =>
      rw [hd] at h
      simp only at h
      split at h
      · next hb =>
        intro c' hc'
        rcases List.mem_cons.1 hc' with rfl | hc'
        · exact ⟨d, hd, hb⟩
        · exact ih h c' hc'
      · simp at h

theorem digitVal_dec {c : Byte} (h : 48 ≤ c.toNat ∧ c.toNat ≤ 57) : digitVal c = some (c.toNat - 48) := by
  unfold digitVal; rw [if_pos h]

theorem digitVal_hex {c : Byte} (h : isHex c) : digitVal c = some (hexVal c) ∧ hexVal c < 16 := by
  unfold isHex at h
  unfold digitVal hexVal
  rcases h with h | h | h
  · rw [if_pos h, if_pos h.2]; exact ⟨rfl, by omega⟩
  · rw [if_neg (by omega), if_neg (by omega), if_pos (by omega), if_neg (by omega), if_pos (by omega)]
    exact ⟨rfl, by omega⟩
  · rw [if_neg (by omega), if_pos (by omega), if_neg (by omega), if_neg (by omega)]
    exact ⟨rfl, by omega⟩

theorem digitVal_lt {c : Byte} {d b : Nat} (h : digitVal c = some d) (hb : d < b) (h10 : b ≤ 10) :
    48 ≤ c.toNat ∧ c.toNat < 48 + b := by
  unfold digitVal at h
  split at h
  · simp at h; omega
  · split at h
    · simp at h; omega
    · split at h
      · simp at h; omega
      · simp at h

theorem digitVal_lt16 {c : Byte} {d : Nat} (h : digitVal c = some d) (hb : d < 16) : isHex c := by
  unfold isHex
  unfold digitVal at h
  split at h
  · exact .inl (by assumption)
  · split at h
    · simp at h; omega
    · split at h
      · simp at h; omega
      · simp at h

theorem magnitude_nat {b : List Byte} {v : Nat} (h : IsNat b v) : magnitude b = some (v, []) := by
  cases h with
  | dec c ds hc hd =>
    have hall : ∀ x ∈ c :: ds, digitVal x = some (x.toNat - 48) ∧ x.toNat - 48 < 10 := by
      intro x hx
      have : 48 ≤ x.toNat ∧ x.toNat ≤ 57 := by
        rcases List.mem_cons.1 hx with rfl | hx
        · omega
        · exact hd x hx
      exact ⟨digitVal_dec this, by omega⟩
    have hne : c ≠ 48 := by rintro rfl; simp at hc
    have hs : startsDigit 10 (c :: ds) = true := by
      simp only [startsDigit, (hall c (by simp)).1, decide_eq_true_eq]
      exact (hall c (by simp)).2
    unfold magnitude
    split
    · next heq => injection heq with e1 _; exact absurd e1 hne
    · rw [if_neg (by simp [hne]), if_pos hs, digits_all 10 _ _ hall]
  | oct ds hd =>
    have hall : ∀ x ∈ (48 : Byte) :: ds, digitVal x = some (x.toNat - 48) ∧ x.toNat - 48 < 8 := by
      intro x hx
      have : 48 ≤ x.toNat ∧ x.toNat ≤ 55 := by
        rcases List.mem_cons.1 hx with rfl | hx
        · simp
        · exact hd x hx
      exact ⟨digitVal_dec (by omega), by omega⟩
    have hf : digits 8 0 (48 :: ds) = (ds.foldl (fun a d => a * 8 + (d.toNat - 48)) 0, []) := by
      rw [digits_all 8 _ _ hall]; rfl
    unfold magnitude
    split
    · next x r heq =>
      injection heq with _ e2
      rw [if_neg, hf]
      rintro ⟨hx, _⟩
      have := hd x (by rw [e2]; simp)
      rcases hx with rfl | rfl <;> simp at this
    · have hs : startsDigit 8 (48 :: ds) = true := by
        simp only [startsDigit, (hall 48 (by simp)).1, decide_eq_true_eq]
        exact (hall 48 (by simp)).2
      rw [if_pos (by simp [hs]), hf]
  | hex x ds hx hne hd =>
    have hall : ∀ c ∈ ds, digitVal c = some (hexVal c) ∧ hexVal c < 16 := fun c hc => digitVal_hex (hd c hc)
    obtain ⟨c, t, rfl⟩ := List.exists_cons_of_ne_nil hne
    have hs : startsDigit 16 (c :: t) = true := by
      simp only [startsDigit, (hall c (by simp)).1, decide_eq_true_eq]
      exact (hall c (by simp)).2
    unfold magnitude
    simp only
    rw [if_pos ⟨hx, hs⟩, digits_all 16 _ _ hall]

theorem magnitude_isNat {b : List Byte} {v : Nat} (h : magnitude b = some (v, [])) : IsNat b v := by
  have oct : ∀ {r : List Byte}, digits 8 0 (48 :: r) = (v, []) → IsNat (48 :: r) v := by
    intro r h
    have hd : ∀ d ∈ r, 48 ≤ d.toNat ∧ d.toNat ≤ 55 := by
      intro d hd
      obtain ⟨x, h1, h2⟩ := digits_rest (congrArg Prod.snd h) d (List.mem_cons_of_mem _ hd)
      have := digitVal_lt h1 h2 (by omega)
      omega
    have h2 := magnitude_nat (IsNat.oct r hd)
    have hv : v = r.foldl (fun a d => a * 8 + (d.toNat - 48)) 0 := by
      rw [digits_all 8 (fun c => c.toNat - 48)] at h
      · exact (congrArg Prod.fst h).symm
      · intro c hc
        have : 48 ≤ c.toNat ∧ c.toNat ≤ 55 := by
          rcases List.mem_cons.1 hc with rfl | hc
          · simp
          · exact hd c hc
        exact ⟨digitVal_dec (by omega), by omega⟩
    rw [hv]
    exact .oct r hd
  unfold magnitude at h
  split at h
  · next x r =>
    split at h
    · next hx =>
      have h := Option.some.inj h
      have hd : ∀ c ∈ r, isHex c := by
        intro c hc
        obtain ⟨d, h1, h2⟩ := digits_rest (congrArg Prod.snd h) c hc
        exact digitVal_lt16 h1 h2
      have hne : r ≠ [] := by rintro rfl; simp [startsDigit] at hx
      rw [digits_all 16 hexVal r (fun c hc => digitVal_hex (hd c hc))] at h
      rw [← (Prod.mk.inj h).1]
      exact .hex x r hx.1 hne hd
    · exact oct (Option.some.inj h)
  · next hnm =>
    split at h
    · next h8 =>
      cases b with
      | nil => simp [startsDigit] at h8
      | cons c r =>
        obtain ⟨_, hc⟩ := h8
        simp only [List.head?_cons, Option.some.injEq] at hc
        subst hc
        exact oct (Option.some.inj h)
    · next h8 =>
      split at h
      · next h10 =>
        have h := Option.some.inj h
        cases b with
        | nil => simp [startsDigit] at h10
        | cons c r =>
          have hd : ∀ d ∈ c :: r, 48 ≤ d.toNat ∧ d.toNat ≤ 57 := by
            intro d hd
            obtain ⟨x, h1, h2⟩ := digits_rest (congrArg Prod.snd h) d hd
            have := digitVal_lt h1 h2 (by omega)
            omega
          have hc : c ≠ 48 := by
            rintro rfl
            exact h8 ⟨by simp [startsDigit, digitVal], rfl⟩
          have hc' : c.toNat ≠ 48 := fun hx => hc (UInt8.toNat_inj.1 (by simpa using hx))
          rw [digits_all 10 (fun c => c.toNat - 48)] at h
          · rw [← (Prod.mk.inj h).1]
            exact .dec c r (by have := hd c (by simp); omega) fun d h => hd d (by simp [h])
          · intro x hx
            have := hd x hx
            exact ⟨digitVal_dec this, by omega⟩
      · simp at h

theorem nat_head {b : List Byte} {v : Nat} (h : IsNat b v) : ∃ c t, b = c :: t ∧ 48 ≤ c.toNat ∧ c.toNat ≤ 57 := by
  cases h with
  | dec c ds hc => exact ⟨c, ds, rfl, by omega, by omega⟩
  | oct ds => exact ⟨48, ds, rfl, by simp, by simp⟩
  | hex x ds => exact ⟨48, x :: ds, rfl, by simp, by simp⟩

theorem isSpace_iff (c : Byte) : isSpace c = true ↔ c = 32 ∨ (9 ≤ c.toNat ∧ c.toNat ≤ 13) := by
  unfold isSpace; simp

theorem dropWhile_ws {ws : List Byte} (hw : ∀ c ∈ ws, c = 32 ∨ (9 ≤ c.toNat ∧ c.toNat ≤ 13)) {c : Byte} {t : List Byte}
    (hc : isSpace c = false) : (ws ++ c :: t).dropWhile isSpace = c :: t := by
  induction ws with
  | nil => simp [hc]
  | cons w ws ih =>
    rw [List.cons_append, List.dropWhile_cons_of_pos ((isSpace_iff w).2 (hw w (by simp)))]
    exact ih fun c hc => hw c (by simp [hc])

theorem toLong_eq (n : Int) : clampLong n = toLong n := by
  unfold clampLong toLong
  split
  · omega
  · split <;> omega

theorem strtol_int {t : List Byte} {n : Int} (h : IsInt t n) : t ≠ [] ∧ strtol0 t = (toLong n, []) := by
  cases h with
  | plain ws b v hw hb =>
    obtain ⟨c, r, rfl, h1, h2⟩ := nat_head hb
    have hsp : isSpace c = false := by
      cases hx : isSpace c with
      | false => rfl
      | true =>
        rcases (isSpace_iff c).1 hx with rfl | hx
        · simp at h1
        · omega
    refine ⟨by simp, ?_⟩
    unfold strtol0
    rw [dropWhile_ws hw hsp]
    split
    · next heq => injection heq with e1 _; subst e1; simp at h1
    · next heq => injection heq with e1 _; subst e1; simp at h1
    · rw [magnitude_nat hb]
      simp only [toLong_eq]
  | plus ws b v hw hb =>
    refine ⟨by simp, ?_⟩
    unfold strtol0
    rw [dropWhile_ws hw (by decide)]
    simp only
    rw [magnitude_nat hb]
    simp only [toLong_eq]
  | minus ws b v hw hb =>
    refine ⟨by simp, ?_⟩
    unfold strtol0
    rw [dropWhile_ws hw (by decide)]
    simp only
    rw [magnitude_nat hb]
    simp only [toLong_eq]

theorem strtol_not_int {t : List Byte} (hne : t ≠ []) (h : (strtol0 t).2 = []) : ∃ n, IsInt t n := by
  have ht := List.takeWhile_append_dropWhile (p := isSpace) (l := t)
  have hw : ∀ c ∈ t.takeWhile isSpace, c = 32 ∨ (9 ≤ c.toNat ∧ c.toNat ≤ 13) :=
    fun c hc => (isSpace_iff c).1 (List.all_eq_true.1 List.all_takeWhile c hc)
  unfold strtol0 at h
  split at h
  · next r heq =>
    split at h
    · next v e hm =>
      simp only at h
      subst h
      rw [← ht, heq]
      exact ⟨_, .minus _ r v hw (magnitude_isNat hm)⟩
    · exact absurd h hne
  · next r heq =>
    split at h
    · next v e hm =>
      simp only at h
      subst h
      rw [← ht, heq]
      exact ⟨_, .plus _ r v hw (magnitude_isNat hm)⟩
    · exact absurd h hne
  · split at h
    · next v e hm =>
      simp only at h
      subst h
      rw [← ht]
      exact ⟨_, .plain _ _ v hw (magnitude_isNat hm)⟩
    · exact absurd h hne

/-- **C36** (which texts are numbers): `get_long` of a stored text answers 0 and the nearest `long` exactly when the
text is a C integer (decimal, octal or hexadecimal, white space and a sign in front, nothing behind), and `-EINVAL`
without touching the output otherwise. -/
theorem get_long_text (s : St) (hs : Reachable s) (k v : List Byte) (hk : (0 : Byte) ∉ k) (hv : (0 : Byte) ∉ v)
    (ok : Oks) (hg : ok.grow = true) (s' : St) (hadd : addStr s k v ok = some (s', 0)) :
    (∀ n, IsInt v n → getLong s' k = some (some (toLong n), 0)) ∧
    ((¬ ∃ n, IsInt v n) → getLong s' k = some (none, -22)) := by
  obtain ⟨L, g⟩ := reachable_good hs
  obtain ⟨s1, L', r, k1, k2, _, k4⟩ := addStr_spec g k v hk hv ok hg
  rw [hadd] at k1
  simp only [Option.some.injEq, Prod.mk.injEq] at k1
  obtain ⟨e1, e2⟩ := k1
  subst e1; subst e2
  have ht : texts s'.heap L' = Spec.insert (texts s.heap L) k v := by
    simp only [Spec.step] at k4
    split at k4
    · exact congrArg Prod.fst k4
    · have := congrArg Prod.snd k4; simp at this
  rw [getLong_spec k2, ht, find_insert, if_pos rfl]
  simp only
  constructor
  · intro n hn
    obtain ⟨h1, h2⟩ := strtol_int hn
    rw [if_neg (by simp [h1, h2]), h2]
  · intro hn
    rw [if_pos]
    by_cases hne : v = []
    · exact .inl hne
    · exact .inr fun h => hn (strtol_not_int hne h)

/-- a text has at most one value -/
theorem int_unique {t : List Byte} {n m : Int} (h : IsInt t n) (h' : IsInt t m) : toLong n = toLong m :=
  congrArg Prod.fst ((strtol_int h).2.symm.trans (strtol_int h').2)

/-- FINDING: a number outside the range of `long` is silently replaced by the nearest end of the range: the code does
not look at `errno`. -/
theorem get_long_saturates (s : St) (hs : Reachable s) (k v : List Byte) (hk : (0 : Byte) ∉ k) (hv : (0 : Byte) ∉ v)
    (ok : Oks) (hg : ok.grow = true) (s' : St) (hadd : addStr s k v ok = some (s', 0)) (n : Int) (hn : IsInt v n)
    (hbig : 2 ^ 63 ≤ n) : getLong s' k = some (some (2 ^ 63 - 1), 0) := by
  rw [(get_long_text s hs k v hk hv ok hg s' hadd).1 n hn]
  congr 3
  unfold toLong
  omega

/-- " -0x1f" is -31, "010" is 8, "08" and "1 " are no numbers -/
example : IsInt [32, 45, 48, 120, 49, 102] (-31) ∧ IsInt [48, 49, 48] 8 ∧
    (strtol0 [48, 56]).2 = [56] ∧ (strtol0 [49, 32]).2 = [32] :=
  ⟨.minus [32] [48, 120, 49, 102] 31 (by decide) (.hex 120 [49, 102] (.inl rfl) (by decide) (by unfold isHex; decide)),
   .plain [] [48, 49, 48] 8 (by simp) (.oct [49, 48] (by decide)), by decide +kernel, by decide +kernel⟩

end Verif.StrParams
