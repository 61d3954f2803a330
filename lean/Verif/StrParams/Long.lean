import Verif.StrParams.Parse
import Verif.Common.Dec
/-!
# Integers in str_params (C36)
-/
namespace Verif.StrParams
open Verif.Hashmap (Ptr)
open Verif.Hashmap.Spec (FMap)
open Strings (decText)
open Spec

theorem digits_dec (l : List Byte) (h : ∀ c ∈ l, 48 ≤ c.toNat ∧ c.toNat ≤ 57) : ∀ acc,
    digits 10 acc l = (l.foldl (fun a c => a * 10 + (c.toNat - 48)) acc, []) := by
  induction l with
  | nil => intro acc; rfl
  | cons c l ih =>
    intro acc
    have hc := h c (by simp)
    have hd : digitVal c = some (c.toNat - 48) := by unfold digitVal; rw [if_pos hc]
    unfold digits
    simp only [hd]
    rw [if_pos (by omega), ih (fun c hc => h c (by simp [hc]))]
    rfl

theorem magnitude_decText (n : Nat) : magnitude (decText n) = some (n, []) := by
  by_cases hn : n = 0
  · subst hn; decide +kernel
  · obtain ⟨c, t, h1, h2⟩ := decText_head n (by omega)
    have hd := digits_dec (decText n) (decText_digit n) 0
    rw [decText_value] at hd
    have hc := decText_digit n c (by rw [h1]; simp)
    have hs : startsDigit 10 (c :: t) = true := by
      unfold startsDigit
      have hdv : digitVal c = some (c.toNat - 48) := by unfold digitVal; rw [if_pos hc]
      simp only [hdv, decide_eq_true_eq]; omega
    rw [h1] at hd ⊢
    unfold magnitude
    split
    · rename_i x r heq
      injection heq with e1 _
      exact absurd e1 h2
    · rw [if_neg (by simp [h2]), if_pos hs, hd]

theorem head_not_special (n : Nat) : ∃ c t, decText n = c :: t ∧ isSpace c = false ∧ c ≠ 45 ∧ c ≠ 43 := by
  obtain ⟨c, t, h⟩ := List.exists_cons_of_ne_nil (decText_ne_nil n)
  have hc := decText_digit n c (by rw [h]; simp)
  refine ⟨c, t, h, ?_, ?_, ?_⟩
  · unfold isSpace
    simp only [decide_eq_false_iff_not, not_or]
    refine ⟨fun e => ?_, by omega⟩
    rw [e] at hc; simp at hc
  · intro e; rw [e] at hc; simp at hc
  · intro e; rw [e] at hc; simp at hc

/-- `strtol` reads back what `%ld` printed. -/
theorem strtol_decInt (n : Int) (h1 : -2 ^ 63 ≤ n) (h2 : n < 2 ^ 63) : strtol0 (decInt n) = (n, []) := by
  have hcl : clampLong n = n := by
    unfold clampLong; rw [if_neg (by omega), if_neg (by omega)]
  unfold decInt
  by_cases hn : n < 0
  · rw [if_pos hn]
    unfold strtol0
    have : (45 :: decText n.natAbs).dropWhile isSpace = 45 :: decText n.natAbs := by
      rw [List.dropWhile_cons, if_neg (by decide)]
    rw [this]
    simp only [magnitude_decText]
    rw [show -((n.natAbs : Nat) : Int) = n by omega, hcl]
  · rw [if_neg hn]
    obtain ⟨c, t, e1, e2, e3, e4⟩ := head_not_special n.natAbs
    have hm := magnitude_decText n.natAbs
    rw [e1] at hm ⊢
    unfold strtol0
    rw [List.dropWhile_cons, if_neg (by simp [e2])]
    split
    · rename_i heq; injection heq with q _; exact absurd q e3
    · rename_i heq; injection heq with q _; exact absurd q e4
    · simp only [hm]
      rw [show ((n.natAbs : Nat) : Int) = n by omega, hcl]

theorem decInt_no0 (n : Int) : (0 : Byte) ∉ decInt n := by
  unfold decInt
  have := decText_no0 n.natAbs
  split
  · intro h
    rcases List.mem_cons.mp h with h | h
    · exact absurd h (by decide)
    · exact this h
  · exact this

theorem decInt_length (n : Int) (h1 : -2 ^ 63 ≤ n) (h2 : n < 2 ^ 63) : (decInt n).length ≤ 20 := by
  have : (decText n.natAbs).length ≤ 19 := (decText_length_le (by omega)).mpr (by omega)
  unfold decInt
  split <;> simp <;> omega

theorem decInt_ne_nil (n : Int) : decInt n ≠ [] := by
  unfold decInt
  split
  · simp
  · exact decText_ne_nil _

/-- `add_long` stores the decimal text of the number: the local buffer is always big enough. -/
theorem addLong_eq (s : St) (k : List Byte) (n : Int) (h1 : -2 ^ 63 ≤ n) (h2 : n < 2 ^ 63) (ok : Oks) :
    addLong s k n ok = addStr s k (decInt n) ok := by
  have hl := decInt_length n h1 h2
  have h0 := decInt_no0 n
  unfold addLong Mem.snprintf
  rw [if_neg (by omega), List.take_of_length_le (l := decInt n) (by omega)]
  have hst : Mem.store (List.replicate 24 0) 0 (decInt n ++ [0]) =
      some (decInt n ++ 0 :: (List.replicate 24 (0 : Byte)).drop ((decInt n).length + 1)) := by
    unfold Mem.store
    rw [if_pos (by simp; omega)]
    simp
  rw [hst]
  simp only [Option.map_some]
  rw [Mem.cstr_zero h0]

theorem getLong_spec {s : St} {L : FMap} {X : List Ptr} (g : Good s L X) (k : List Byte) :
    getLong s k = some (match find (texts s.heap L) k with
      | none => (none, -2)
      | some v => if v = [] ∨ (strtol0 v).2 ≠ [] then (none, -22) else (some (strtol0 v).1, 0)) := by
  unfold getLong
  rcases lookup_spec g k with ⟨h1, h2⟩ | ⟨p, v, h1, h1l, h2, h3, h0, h4⟩
  · rw [h2, h1]; rfl
  · rw [h4, h2]
    obtain ⟨q, rfl⟩ : ∃ q, p = q + 1 := ⟨p - 1, (Nat.succ_pred_eq_of_ne_zero h1).symm⟩
    simp only [readStr]
    rw [if_pos h1l, h3]
    simp only
    split <;> rfl

/-- C36: after a successful `add_long(k, n)`, `get_long(k)` gives `n`, for every `long`; other keys are
untouched. -/
theorem long_round_trip (s : St) (hs : Reachable s) (k : List Byte) (hk : (0 : Byte) ∉ k) (n : Int)
    (h1 : -2 ^ 63 ≤ n) (h2 : n < 2 ^ 63) (ok : Oks) (hg : ok.grow = true) (s' : St)
    (hadd : addLong s k n ok = some (s', 0)) :
    getLong s' k = some (some n, 0) ∧ ∀ k', k' ≠ k → getLong s' k' = getLong s k' := by
  rw [addLong_eq s k n h1 h2] at hadd
  obtain ⟨L, g⟩ := reachable_good hs
  obtain ⟨s1, L', r, k1, k2, _, k4⟩ := addStr_spec g k (decInt n) hk (decInt_no0 n) ok hg
  rw [hadd] at k1
  simp only [Option.some.injEq, Prod.mk.injEq] at k1
  obtain ⟨e1, e2⟩ := k1
  subst e1; subst e2
  have ht : texts s'.heap L' = Spec.insert (texts s.heap L) k (decInt n) := by
    simp only [Spec.step] at k4
    split at k4
    · exact congrArg Prod.fst k4
    · have := congrArg Prod.snd k4; simp at this
  constructor
  · rw [getLong_spec k2, ht, find_insert, if_pos rfl]
    simp only [strtol_decInt n h1 h2]
    rw [if_neg (by simp [decInt_ne_nil])]
  · intro k' hne
    rw [getLong_spec k2, getLong_spec g, ht, find_insert, if_neg hne]

/-- C36, other half: `add_long` on a new object with memory available succeeds. -/
theorem add_long_succeeds (s : St) (hs : Reachable s) (k : List Byte) (hk : (0 : Byte) ∉ k) (n : Int)
    (h1 : -2 ^ 63 ≤ n) (h2 : n < 2 ^ 63) (hsz : s.map.size < 2 ^ 59) :
    ∃ s', addLong s k n allOk = some (s', 0) := by
  rw [addLong_eq s k n h1 h2]
  obtain ⟨L, g⟩ := reachable_good hs
  obtain ⟨s1, L', r, k1, _, _, k4⟩ := addStr_spec g k (decInt n) hk (decInt_no0 n) allOk rfl
  refine ⟨s1, ?_⟩
  rw [k1]
  have hl : (texts s.heap L).length < 2 ^ 59 := by rw [texts_length, ← g.r.size_eq]; exact hsz
  have hm : memOk (texts s.heap L) k allOk = true := by
    unfold memOk allOk
    simp only [Bool.and_self, Bool.true_and, Bool.or_eq_true, decide_eq_true_eq]
    exact Or.inr hl
  simp only [Spec.step, hm, if_true] at k4
  have := congrArg Prod.snd k4
  simp only [Res.code.injEq] at this
  rw [this]

/-- C36 for `int`: `get_int` gives back every number `add_int` (or `add_long`) stored that is in the range
of `int`. -/
theorem int_round_trip (s : St) (hs : Reachable s) (k : List Byte) (hk : (0 : Byte) ∉ k) (n : Int)
    (h1 : -2 ^ 31 ≤ n) (h2 : n < 2 ^ 31) (ok : Oks) (hg : ok.grow = true) (s' : St)
    (hadd : addLong s k n ok = some (s', 0)) : getInt s' k = some (some n, 0) := by
  unfold getInt
  rw [(long_round_trip s hs k hk n (by omega) (by omega) ok hg s' hadd).1]
  simp only [Option.map_some, Option.some.injEq, Prod.mk.injEq, and_true]
  rw [BitVec.toInt_ofInt, Int.bmod_eq_of_le (by omega) (by omega)]

/-- FINDING: a number outside the range of `int` is reduced modulo 2^32 and `get_int` still reports
success: 2^32 is read as 0. -/
theorem get_int_truncates (s : St) (hs : Reachable s) (k : List Byte) (hk : (0 : Byte) ∉ k) (ok : Oks)
    (hg : ok.grow = true) (s' : St) (hadd : addLong s k (2 ^ 32) ok = some (s', 0)) :
    getInt s' k = some (some 0, 0) := by
  unfold getInt
  rw [(long_round_trip s hs k hk (2 ^ 32) (by omega) (by omega) ok hg s' hadd).1]
  rfl

end Verif.StrParams
