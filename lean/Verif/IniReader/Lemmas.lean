import Verif.IniReader.Spec
/-! # The helper functions of `ini_reader.c` meet their list specifications -/
namespace Verif.IniReader
open Spec

theorem getElem?_mid (pre : List Byte) (c : Byte) (post : List Byte) {n : Nat} (hn : n = pre.length) :
    (pre ++ c :: post)[n]? = some c := by
  subst hn; simp

theorem store_mid (pre : List Byte) (c d : Byte) (post : List Byte) {n : Nat} (hn : n = pre.length) :
    Mem.store (pre ++ c :: post) n [d] = some (pre ++ d :: post) := by
  subst hn
  rw [Mem.store_eq_some (by simp)]
  simp

theorem rtrim_snoc (l : List Byte) (c : Byte) :
    rtrim (l ++ [c]) = if isSpace c then rtrim l else l ++ [c] := by
  unfold rtrim
  rw [List.reverse_append, List.reverse_singleton, List.singleton_append, List.dropWhile_cons]
  split
  · rfl
  · simp

theorem rtrim_prefix (s : List Byte) : ∃ t, s = rtrim s ++ t := by
  refine ⟨(s.reverse.takeWhile isSpace).reverse, ?_⟩
  unfold rtrim
  rw [← List.reverse_append, List.takeWhile_append_dropWhile, List.reverse_reverse]

theorem rtrim_len (s : List Byte) : (rtrim s).length ≤ s.length := by
  obtain ⟨t, h⟩ := rtrim_prefix s
  have := congrArg List.length h
  simp at this; omega

theorem rstripLoop_eq (pre : List Byte) : ∀ (k : Nat) (s after : List Byte), s.length = k →
    rstripLoop (pre ++ (s ++ after)) pre.length k =
      some (pre ++ (rtrim s ++ (List.replicate (s.length - (rtrim s).length) 0 ++ after))) := by
  intro k
  induction k with
  | zero =>
    intro s after h
    have : s = [] := List.length_eq_zero_iff.mp h
    subst this; simp [rstripLoop, rtrim]
  | succ k ih =>
    intro s after h
    obtain ⟨l, c, rfl⟩ : ∃ l c, s = l ++ [c] := by
      refine ⟨s.dropLast, s.getLast (by intro e; simp [e] at h), ?_⟩
      exact (List.dropLast_concat_getLast _).symm
    have hl : l.length = k := by simpa using h
    have e1 : pre ++ (l ++ [c] ++ after) = (pre ++ l) ++ c :: after := by simp
    rw [rstripLoop, e1, getElem?_mid _ _ _ (by simp [hl])]
    simp only [Option.bind_eq_bind, Option.bind_some]
    rw [rtrim_snoc]
    cases hc : isSpace c
    · simp
    · simp only [if_true]
      rw [store_mid _ _ _ _ (by simp [hl])]
      simp only [Option.bind_some]
      rw [List.append_assoc, ih l (0 :: after) hl]
      have := rtrim_len l
      rw [List.length_append, List.length_singleton,
        show l.length + 1 - (rtrim l).length = (l.length - (rtrim l).length) + 1 by omega,
        List.replicate_succ']
      simp

theorem cstr_at {pre s after : List Byte} (h : (0 : Byte) ∉ s) {p : Nat} (hp : p = pre.length) :
    Mem.cstr (pre ++ (s ++ 0 :: after)) p = some s := by
  subst hp
  exact Mem.cstr_eq (after := after) (by simp) h

theorem rstrip_eq (pre s after : List Byte) (h : (0 : Byte) ∉ s) {p : Nat} (hp : p = pre.length) :
    rstrip (pre ++ (s ++ 0 :: after)) p =
      some (pre ++ (rtrim s ++ (List.replicate (s.length - (rtrim s).length) 0 ++ 0 :: after))) := by
  unfold rstrip Mem.strlen
  rw [cstr_at h hp]
  subst hp
  simp only [Option.map_some, Option.bind_eq_bind, Option.bind_some]
  exact rstripLoop_eq pre _ s (0 :: after) rfl

/-- after trimming there is again a NUL right behind the trimmed string -/
theorem zeros_cons (k : Nat) (after : List Byte) :
    ∃ after', List.replicate k (0 : Byte) ++ 0 :: after = 0 :: after' ∧ after'.length = k + after.length := by
  cases k with
  | zero => exact ⟨after, by simp, by simp⟩
  | succ k => exact ⟨List.replicate k 0 ++ 0 :: after, by simp [List.replicate_succ], by simp; omega⟩

theorem lskipLoop_eq (s after : List Byte) (h : (0 : Byte) ∉ s) (p : Nat) :
    lskipLoop (s ++ 0 :: after) p = some (p + (s.length - (ltrim s).length)) := by
  induction s generalizing p with
  | nil => simp [lskipLoop, ltrim]
  | cons c l ih =>
    have hc : c ≠ 0 := fun e => h (by simp [e])
    have hl : (0 : Byte) ∉ l := fun e => h (by simp [e])
    rw [List.cons_append, lskipLoop]
    cases hs : isSpace c
    · simp [ltrim, hs]
    · rw [if_pos ⟨hc, rfl⟩, ih hl]
      have : ltrim (c :: l) = ltrim l := by simp [ltrim, hs]
      rw [this]
      have h2 : (ltrim l).length ≤ l.length := (List.dropWhile_suffix _).length_le
      simp only [List.length_cons, Option.some.injEq]
      omega

theorem ltrim_suffix (s : List Byte) : ∃ t, s = t ++ ltrim s ∧ t.length = s.length - (ltrim s).length ∧
    (∀ c ∈ t, isSpace c = true) := by
  refine ⟨s.takeWhile isSpace, (List.takeWhile_append_dropWhile ..).symm, ?_, ?_⟩
  · have := congrArg List.length (List.takeWhile_append_dropWhile (p := isSpace) (l := s))
    rw [List.length_append] at this
    unfold ltrim; omega
  · intro c hc
    have := List.all_takeWhile (p := isSpace) (l := s)
    rw [List.all_eq_true] at this
    exact this c hc

theorem lskip_eq (pre s after : List Byte) (h : (0 : Byte) ∉ s) {p : Nat} (hp : p = pre.length) :
    lskip (pre ++ (s ++ 0 :: after)) p = some (p + (s.length - (ltrim s).length)) := by
  unfold lskip
  subst hp
  rw [List.drop_left, lskipLoop_eq s after h]

/-! ## `ini_find_chars_or_comment` -/

/-- `stopsAt`, with an explicit answer to "was there a blank before `s`?" -/
def stopsW (chars : List Byte) (w : Bool) (s : List Byte) (i : Nat) : Bool :=
  chars.contains (s.getD i 0) || ((if i = 0 then w else isSpace (s.getD (i - 1) 0)) && s.getD i 0 == 59)

/-- recursive form of `stop` -/
def stopR (chars : List Byte) : Bool → List Byte → Nat
  | _, [] => 0
  | w, c :: s => if chars.contains c || (w && c == 59) then 0 else stopR chars (isSpace c) s + 1

theorem stopR_eq (chars : List Byte) (w : Bool) (s : List Byte) :
    ((List.range s.length).find? (stopsW chars w s)).getD s.length = stopR chars w s := by
  induction s generalizing w with
  | nil => simp [stopR]
  | cons c l ih =>
    rw [List.length_cons, List.range_succ_eq_map, List.find?_cons]
    have h0 : stopsW chars w (c :: l) 0 = (chars.contains c || (w && c == 59)) := by
      simp [stopsW]
    rw [h0, stopR]
    cases hh : (chars.contains c || (w && c == 59))
    · simp only [Bool.false_eq_true, if_false]
      rw [List.find?_map, ← ih]
      have : (stopsW chars w (c :: l) ∘ Nat.succ) = stopsW chars (isSpace c) l := by
        funext i
        cases i with
        | zero => simp [stopsW]
        | succ i => simp [stopsW]
      rw [this]
      cases (List.range l.length).find? (stopsW chars (isSpace c) l) <;> simp
    · simp

theorem stop_eq (chars s : List Byte) : stop chars s = stopR chars false s := by
  rw [← stopR_eq]
  unfold stop
  congr 2
  funext i
  unfold stopsAt stopsW
  cases i <;> simp

theorem stopR_le (chars : List Byte) (w : Bool) (s : List Byte) : stopR chars w s ≤ s.length := by
  induction s generalizing w with
  | nil => simp [stopR]
  | cons c l ih =>
    rw [stopR]; split
    · simp
    · have := ih (isSpace c); simp; omega

theorem stop_le (chars s : List Byte) : stop chars s ≤ s.length := by
  rw [stop_eq]; exact stopR_le _ _ _

theorem findLoop_eq (oc : Option (List Byte)) (chars : List Byte) (hoc : oc.getD [] = chars)
    (s after : List Byte) (h : (0 : Byte) ∉ s) (p : Nat) (w : Bool) :
    findLoop oc (s ++ 0 :: after) p w = some (p + stopR chars w s) := by
  induction s generalizing p w with
  | nil => simp [findLoop, stopR]
  | cons c l ih =>
    have hc : c ≠ 0 := fun e => h (by simp [e])
    have hl : (0 : Byte) ∉ l := fun e => h (by simp [e])
    rw [List.cons_append, findLoop, stopR]
    have hall : (oc.all fun cs => !strchrIn cs c) = !chars.contains c := by
      subst hoc
      cases oc with
      | none => simp
      | some cs => simp [strchrIn, hc]
    have h59 : strchrIn [59] c = (c == 59) := by
      have e0 : (c == 0) = false := by simpa using hc
      simp only [strchrIn, List.contains_cons, List.contains_nil, Bool.or_false, e0]
    rw [hall, h59]
    cases hm : chars.contains c <;> cases w <;> cases h9 : c == 59 <;>
      simp [hc, ih hl, Nat.add_assoc, Nat.add_comm]

theorem findChars_eq (oc : Option (List Byte)) (pre s after : List Byte) (h : (0 : Byte) ∉ s) {p : Nat}
    (hp : p = pre.length) :
    findChars (pre ++ (s ++ 0 :: after)) p oc = some (p + stop (oc.getD []) s) := by
  unfold findChars
  subst hp
  rw [List.drop_left, findLoop_eq oc _ rfl s after h, stop_eq]

/-! ## `ini_strncpy0` -/

theorem strncpy0Loop_eq (pre s after : List Byte) (h : (0 : Byte) ∉ s) :
    ∀ (n i : Nat) (d rest : List Byte), d.length = i → n ≤ rest.length → i ≤ s.length →
      strncpy0Loop (d ++ rest) (pre ++ (s ++ 0 :: after)) pre.length n i =
        some (d ++ (s.drop i).take n ++ rest.drop ((s.drop i).take n).length, i + ((s.drop i).take n).length) := by
  intro n
  induction n with
  | zero => intro i d rest _ _ _; simp [strncpy0Loop]
  | succ n ih =>
    intro i d rest hd hn hi
    rw [strncpy0Loop]
    rw [List.getElem?_append_right (by omega), Nat.add_sub_cancel_left]
    by_cases hlt : i < s.length
    · rw [List.getElem?_append_left hlt, List.getElem?_eq_getElem hlt]
      have hc : s[i] ≠ 0 := fun e => h (by rw [← e]; exact List.getElem_mem _)
      simp only [Option.bind_eq_bind, Option.bind_some, ne_eq, hc, not_false_eq_true, if_true]
      cases rest with
      | nil => simp at hn
      | cons r rest =>
        rw [store_mid _ _ _ _ hd.symm, Option.bind_some,
          show d ++ s[i] :: rest = (d ++ [s[i]]) ++ rest by simp,
          ih (i + 1) _ rest (by simp [hd]) (by simpa using hn) (by omega)]
        rw [List.drop_eq_getElem_cons hlt, List.take_succ_cons]
        simp only [List.append_assoc, List.length_cons, List.cons_append, List.nil_append,
          List.drop_succ_cons, Option.some.injEq, Prod.mk.injEq, true_and]
        omega
    · have : i = s.length := by omega
      rw [this]
      simp

theorem strncpy0_eq (dest pre s after : List Byte) (h : (0 : Byte) ∉ s) {p size : Nat} (hp : p = pre.length)
    (hs : 0 < size) (hd : size = dest.length) :
    ∃ rest, strncpy0 dest (pre ++ (s ++ 0 :: after)) p size = some (s.take (size - 1) ++ 0 :: rest) ∧
      (s.take (size - 1) ++ 0 :: rest).length = dest.length := by
  subst hp
  unfold strncpy0
  have := strncpy0Loop_eq pre s after h (size - 1) 0 [] dest rfl (by omega) (by omega)
  rw [List.nil_append] at this
  rw [this]
  simp only [List.drop_zero, List.nil_append, Nat.zero_add, Option.bind_eq_bind, Option.bind_some]
  have hk : (s.take (size - 1)).length < dest.length := by simp; omega
  generalize s.take (size - 1) = t at *
  rw [List.drop_eq_getElem_cons hk, store_mid _ _ _ _ rfl]
  exact ⟨_, rfl, by simp; omega⟩

end Verif.IniReader
