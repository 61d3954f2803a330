import Verif.Strings.Model
import Verif.Strings.Spec
/-!
# strsplit and strtrim (C30)
-/
namespace Verif.Strings

/-! ### strsplit -/

/-- The pairs (offset, token text) stored so far are still readable, and end at or before `p`. -/
def Stored (m : Mem) (p : Nat) (pairs : List (Nat × List Byte)) : Prop :=
  ∀ q ∈ pairs, m.cstr q.1 = some q.2 ∧ q.1 + q.2.length ≤ p

theorem split_run (delims : List Byte) (limit : Nat) (after : List Byte) (all : List (List Byte)) :
    ∀ (fuel : Nat) (m : Mem) (token : Option Nat) (p : Nat) (r : List Byte)
      (pairs : List (Nat × List Byte)),
      m.drop p = r ++ 0 :: after → (0 : Byte) ∉ r → r.length + 1 < fuel → Stored m p pairs →
      pairs.length ≤ limit →
      ((token = none ∧ all = pairs.map Prod.snd) ∨
        (∃ t tok, token = some t ∧ m.cstr t = some tok ∧ t + tok.length ≤ p ∧
          all = pairs.map Prod.snd ++ tok :: tokens delims r)) →
      ∃ m' ts, splitLoop delims limit fuel m token p (pairs.map Prod.fst) = some (m', ts) ∧
        ts.map m'.cstr = (all.take limit).map some := by
  intro fuel
  induction fuel with
  | zero => intro m token p r pairs _ _ h; omega
  | succ fuel ih =>
    intro m token p r pairs hm h0 hf hst hle htok
    have hmap : (pairs.map Prod.fst).map m.cstr = (pairs.map Prod.snd).map some := by
      rw [List.map_map, List.map_map]
      apply List.map_congr_left
      intro q hq
      exact (hst q hq).1
    unfold splitLoop
    rcases htok with ⟨rfl, hall⟩ | ⟨t, tok, rfl, ht, htl, hall⟩
    · refine ⟨m, _, rfl, ?_⟩
      rw [hmap, hall, List.take_of_length_le (by simpa using hle)]
    · simp only
      by_cases hlim : (pairs.map Prod.fst).length < limit
      · rw [if_pos hlim]
        rw [List.length_map] at hlim
        have hsnoc : pairs.map Prod.fst ++ [t] = (pairs ++ [(t, tok)]).map Prod.fst := by simp
        have hst2 : Stored m p (pairs ++ [(t, tok)]) := by
          intro q hq
          rcases List.mem_append.mp hq with hq | hq
          · exact hst q hq
          · simp only [List.mem_singleton] at hq; subst hq; exact ⟨ht, htl⟩
        rcases strtokR_spec delims hm h0 with ⟨h1, h2⟩ |
          ⟨tok2, r', m', t2, p', h1, h2, h3, h4, h5, h6, h7, h8, h9, h10⟩
        · rw [h2]
          simp only
          rw [hsnoc]
          have hfuel : ([] : List Byte).length + 1 < fuel + 1 := by simp; omega
          -- one more turn of the loop with a NULL token
          obtain ⟨f, rfl⟩ : ∃ f, fuel = f + 1 := ⟨fuel - 1, by omega⟩
          unfold splitLoop
          refine ⟨m, _, rfl, ?_⟩
          have hmap2 : ((pairs ++ [(t, tok)]).map Prod.fst).map m.cstr =
              ((pairs ++ [(t, tok)]).map Prod.snd).map some := by
            rw [List.map_map, List.map_map]
            apply List.map_congr_left
            intro q hq
            exact (hst2 q hq).1
          rw [hmap2, hall, h1, List.take_of_length_le (by simp; omega)]
          simp
        · rw [h2]
          simp only
          rw [hsnoc]
          have hst3 : Stored m' p' (pairs ++ [(t, tok)]) := by
            intro q hq
            obtain ⟨a, b⟩ := hst2 q hq
            refine ⟨?_, by omega⟩
            rcases h6 with h6 | h6
            · rw [h6]; exact a
            · rw [h6]; exact Mem.cstr_set a (by omega) 0
          apply ih m' (some t2) p' r' (pairs ++ [(t, tok)]) h7 h8 (by omega) hst3 (by simp; omega)
          right
          refine ⟨t2, tok2, rfl, h9, h5, ?_⟩
          rw [hall, h1]; simp
      · rw [if_neg hlim]
        rw [List.length_map] at hlim
        refine ⟨m, _, rfl, ?_⟩
        have e : pairs.length = limit := by omega
        rw [hmap, hall, List.take_append_of_le_length (by simp; omega),
          List.take_of_length_le (by simp; omega)]

/-- C30: `strsplit` stores pointers to exactly the first `limit` maximal non-empty runs of non-delimiter
characters, in order: read as C strings in the (modified) source object after the call they are those
runs.  No access leaves the object, for every string, delimiter set and limit. -/
theorem strsplit_spec (s after delims : List Byte) (limit : Nat) (h0 : (0 : Byte) ∉ s) :
    ∃ m' ts, strsplit (s ++ 0 :: after) delims limit = some (m', ts) ∧
      ts.map m'.cstr = ((tokens delims s).take limit).map some := by
  unfold strsplit
  rcases strtokR_spec (m := s ++ 0 :: after) (p := 0) (after := after) delims (by simp) h0 with ⟨h1, h2⟩ |
    ⟨tok, r', m', t, p', h1, h2, h3, h4, h5, h6, h7, h8, h9, h10⟩
  · rw [h2]
    simp only
    unfold splitLoop
    exact ⟨_, _, rfl, by simp [h1]⟩
  · rw [h2]
    simp only
    have := split_run delims limit after (tokens delims s) ((s ++ 0 :: after).length + 1) m' (some t) p'
      r' [] h7 h8 (by simp; omega) (by intro q hq; simp at hq) (by simp)
      (Or.inr ⟨t, tok, rfl, h9, h5, by simpa using h1⟩)
    simpa using this

/-- The number of pointers stored (`*p_splited_nums` after the call). -/
theorem strsplit_count (s after delims : List Byte) (limit : Nat) (h0 : (0 : Byte) ∉ s) :
    ∃ m' ts, strsplit (s ++ 0 :: after) delims limit = some (m', ts) ∧
      ts.length = min limit (tokens delims s).length := by
  obtain ⟨m', ts, h1, h2⟩ := strsplit_spec s after delims limit h0
  refine ⟨m', ts, h1, ?_⟩
  have := congrArg List.length h2
  simpa using this

/-! ### strtrim -/

theorem strchr_no0 {cset : List Byte} {c : Byte} (h : c ≠ 0) : strchrIn cset c = cset.contains c := by
  simp [strchrIn, h]

theorem trimL_run (cset : List Byte) (after : List Byte) (s : List Byte) (h0 : (0 : Byte) ∉ s) :
    ∀ (fuel i : Nat), i ≤ s.length → s.length < fuel + i →
      trimL (s ++ 0 :: after) cset s.length fuel i =
        some (i + ((s.drop i).takeWhile cset.contains).length) := by
  intro fuel
  induction fuel with
  | zero => intro i h1 h2; omega
  | succ fuel ih =>
    intro i h1 h2
    unfold trimL
    by_cases hi : i < s.length
    · rw [if_pos hi]
      have hg : (s ++ 0 :: after)[i]? = some s[i] := by
        rw [List.getElem?_append_left hi]; simp [hi]
      have hne : s[i] ≠ 0 := fun e => h0 (e ▸ List.getElem_mem hi)
      rw [hg, List.drop_eq_getElem_cons hi, List.takeWhile_cons]
      simp only [strchr_no0 hne]
      by_cases hc : cset.contains s[i] = true
      · rw [if_pos hc, if_pos hc, ih (i + 1) (by omega) (by omega)]
        simp; omega
      · rw [if_neg hc, if_neg hc]; simp
    · rw [if_neg hi, List.drop_eq_nil_of_le (by omega)]; simp

theorem eq_nil_or_snoc (L : List Byte) : L = [] ∨ ∃ L' y, L = L' ++ [y] := by
  rcases List.eq_nil_or_concat L with h | ⟨L', y, h⟩
  · exact Or.inl h
  · exact Or.inr ⟨L', y, by simpa using h⟩

/-- `L` = the string from `sp` up to `q`. -/
theorem trimR_run (cset : List Byte) (m : Mem) (sp : Nat) :
    ∀ (fuel : Nat) (L after : List Byte) (first : Byte), L.length < fuel → (0 : Byte) ∉ L →
      cset.contains first = false → m.drop sp = first :: L ++ after →
      trimR m cset sp fuel (sp + 1 + L.length) =
        some (sp + 1 + (L.reverse.dropWhile cset.contains).length) := by
  intro fuel
  induction fuel with
  | zero => intro L after first h; omega
  | succ fuel ih =>
    intro L after first hf h0 hfirst hm
    unfold trimR
    rcases eq_nil_or_snoc L with rfl | ⟨L', y, rfl⟩
    · rw [if_neg (by simp)]; simp
    · rw [if_pos (by simp)]
      have hg : m[sp + 1 + (L' ++ [y]).length - 1]? = some y := by
        have e : sp + 1 + (L' ++ [y]).length - 1 = sp + (L'.length + 1) := by simp; omega
        rw [e, ← List.getElem?_drop, hm]
        simp
      have hy : y ≠ 0 := fun e => h0 (by simp [e])
      rw [hg]
      simp only [strchr_no0 hy, List.reverse_append, List.reverse_cons, List.reverse_nil,
        List.nil_append, List.singleton_append, List.dropWhile_cons]
      by_cases hc : cset.contains y = true
      · rw [if_pos hc, if_pos hc]
        have e : sp + 1 + (L' ++ [y]).length - 1 = sp + 1 + L'.length := by simp
        rw [e]
        exact ih L' (y :: after) first (by simp at hf; omega) (fun h => h0 (by simp [h])) hfirst
          (by rw [hm]; simp)
      · rw [if_neg hc, if_neg hc]; simp

/-- C30: `strtrim` leaves, in place, exactly the string without its longest prefix and suffix of
characters in `cset`, for every string and set, without leaving the object; bytes behind the
original string are unchanged. -/
theorem strtrim_spec (s after cset : List Byte) (h0 : (0 : Byte) ∉ s) :
    ∃ m', strtrim (s ++ 0 :: after) cset = some m' ∧ m'.cstr 0 = some (Spec.trim cset s) ∧
      m'.drop (s.length + 1) = after ∧ m'.length = s.length + 1 + after.length := by
  unfold strtrim
  have hlen : Mem.strlen (s ++ 0 :: after) 0 = some s.length := by
    simp [Mem.strlen, Mem.cstr_zero h0]
  rw [hlen]
  simp only
  rw [trimL_run cset after s h0 _ 0 (by omega) (by omega)]
  simp only [Nat.zero_add, List.drop_zero]
  obtain ⟨hA, hs, hd⟩ := takeWhile_split cset.contains s
  have htrim : Spec.trim cset s = ((s.dropWhile cset.contains).reverse.dropWhile cset.contains).reverse :=
    rfl
  generalize s.takeWhile cset.contains = A at *
  generalize s.dropWhile cset.contains = R at *
  rcases hd with rfl | ⟨c, L, rfl, hc⟩
  · -- everything trimmed
    rw [List.append_nil] at hs
    subst hs
    have : trimR (s ++ 0 :: after) cset s.length (s.length + 1) s.length = some s.length := by
      unfold trimR; rw [if_neg (by omega)]
    rw [this]
    simp only [Nat.sub_self]
    unfold trimMove
    rw [if_neg (by simp)]
    simp only
    unfold Mem.poke
    rw [if_pos (by simp; omega)]
    refine ⟨_, rfl, ?_, ?_, by simp; omega⟩
    · rw [htrim]
      cases s with
      | nil => exact Mem.cstr_eq (after := after) (by simp) (by simp)
      | cons a t => exact Mem.cstr_eq (after := t ++ 0 :: after) (by simp) (by simp)
    · rw [List.drop_set_of_lt (by omega)]; simp
  · have h0L : (0 : Byte) ∉ L := fun h => h0 (by rw [hs]; simp [h])
    have hmd : (s ++ 0 :: after : Mem).drop A.length = c :: L ++ 0 :: after := by
      rw [hs]; simp
    have hslen : s.length = A.length + 1 + L.length := by rw [hs]; simp; omega
    have hr := trimR_run cset (s ++ 0 :: after) A.length (s.length + 1) L (0 :: after) c (by omega) h0L
      hc hmd
    rw [← hslen] at hr
    rw [hr]
    -- the kept text
    have htr : Spec.trim cset s = c :: (L.reverse.dropWhile cset.contains).reverse := by
      rw [htrim, List.reverse_cons, List.dropWhile_append]
      cases hK : (L.reverse.dropWhile cset.contains) with
      | nil =>
        have hc' : ¬ c ∈ cset := by simpa using hc
        simp [hc']
      | cons a b => simp
    have hKL : (L.reverse.dropWhile cset.contains).reverse <+: L := by
      have := List.dropWhile_suffix (l := L.reverse) cset.contains
      have h2 := List.reverse_prefix.mpr this
      simpa using h2
    generalize hKd : (L.reverse.dropWhile cset.contains) = K at *
    obtain ⟨T, hT⟩ := hKL
    have hKlen : K.length ≤ L.length := by rw [← hT]; simp
    simp only
    have elen : A.length + 1 + K.length - A.length = K.length + 1 := by omega
    rw [elen]
    have hkept0 : (0 : Byte) ∉ c :: K.reverse := by
      intro h
      rcases List.mem_cons.mp h with h | h
      · exact h0 (by rw [hs, ← h]; simp)
      · exact h0L (by rw [← hT]; exact List.mem_append_left _ h)
    have hload : ((s ++ 0 :: after : Mem).drop A.length).take (K.length + 1) = c :: K.reverse := by
      rw [hmd, ← hT]
      simp
    -- after the move
    have hmove : ∃ m1 : Mem, trimMove (s ++ 0 :: after) A.length (K.length + 1) = some m1 ∧
        m1.length = s.length + 1 + after.length ∧ m1.take (K.length + 1) = c :: K.reverse ∧
        m1.drop (s.length + 1) = after := by
      unfold trimMove
      by_cases hA0 : A.length ≠ 0
      · rw [if_pos ⟨by omega, hA0⟩, Mem.load_eq_some (by simp; omega), hload]
        simp only
        have hlw : (0 : Nat) + (c :: K.reverse).length ≤ (s ++ 0 :: after : Mem).length := by
          simp; omega
        rw [Mem.store_eq_some hlw]
        refine ⟨_, rfl, ?_, ?_, ?_⟩
        · rw [Mem.store_length _ _ _ hlw]; simp; omega
        · simp
        · rw [List.drop_append]
          simp only [List.take_zero, List.nil_append, Nat.zero_add]
          rw [List.drop_eq_nil_of_le (by simp; omega), List.drop_drop, List.nil_append]
          have e : (c :: K.reverse).length + (s.length + 1 - (c :: K.reverse).length) = s.length + 1 := by
            simp; omega
          rw [e]; simp
      · rw [if_neg (by omega)]
        have : A = [] := by apply List.eq_nil_of_length_eq_zero; omega
        subst this
        refine ⟨_, rfl, by simp; omega, ?_, by simp⟩
        simpa using hload
    obtain ⟨m1, e1, e2, e3, e4⟩ := hmove
    rw [e1]
    simp only
    unfold Mem.poke
    rw [if_pos (by omega)]
    refine ⟨_, rfl, ?_, ?_, by simp; omega⟩
    · rw [htr]
      refine Mem.cstr_eq (after := m1.drop (K.length + 1 + 1)) ?_ hkept0
      rw [List.drop_zero, ← e3]
      have hlt : K.length + 1 < m1.length := by omega
      conv => lhs; rw [← List.take_append_drop (K.length + 1) m1]
      have hl1 : (m1.take (K.length + 1)).length = K.length + 1 := by simp; omega
      rw [List.set_append, if_neg (by omega), hl1, Nat.sub_self, List.drop_eq_getElem_cons hlt]
      rfl
    · rw [List.drop_set_of_lt (by omega), e4]

/-- Splits ",,ab,c;,;d" at ",;" with room for two. -/
example : (strsplit [44, 44, 97, 98, 44, 99, 59, 44, 59, 100, 0] [44, 59] 2).map Prod.snd = some [2, 5] := by
  decide +kernel
example : tokens [44, 59] [44, 44, 97, 98, 44, 99, 59, 44, 59, 100] = [[97, 98], [99], [100]] := by
  decide +kernel
/-- "AA.aHi A" trimmed of "Aa. ". -/
example : (strtrim [65, 65, 46, 97, 72, 105, 32, 65, 0, 7] [65, 97, 46, 32]).bind (·.cstr 0) = some [72, 105] := by
  decide +kernel
example : (strtrim [65, 65, 0, 7] [65]).bind (·.cstr 0) = some [] := by decide +kernel

end Verif.Strings
