import Verif.Strings.Model
/-!
# strlcpy, strlcat, strndup (C28)
-/
namespace Verif.Strings

theorem no0_get {s : List Byte} (h : (0 : Byte) ∉ s) (after : List Byte) {i : Nat}
    (hi : i < s.length) : ∃ c, (s ++ 0 :: after)[i]? = some c ∧ c ≠ 0 ∧ s.take (i + 1) = s.take i ++ [c] := by
  refine ⟨s[i], ?_, ?_, ?_⟩
  · rw [List.getElem?_append_left hi]; simp [hi]
  · intro e; exact h (e ▸ List.getElem_mem hi)
  · rw [List.take_add_one]; simp [hi]

theorem nul_get (s after : List Byte) : (s ++ (0 : Byte) :: after)[s.length]? = some 0 := by simp

theorem skip_run {s : List Byte} (h : (0 : Byte) ∉ s) (after : List Byte) :
    ∀ (fuel i : Nat), i ≤ s.length → s.length < fuel + i →
      skipLoop (s ++ 0 :: after) fuel i = some (s.length + 1) := by
  intro fuel
  induction fuel with
  | zero => intro i h1 h2; omega
  | succ fuel ih =>
    intro i h1 h2
    unfold skipLoop
    by_cases hi : i < s.length
    · obtain ⟨c, hc, hc0, _⟩ := no0_get h after hi
      rw [hc]
      simp only [hc0, if_false]
      exact ih (i + 1) (by omega) (by omega)
    · have : i = s.length := by omega
      subst this
      rw [nul_get]
      simp

/-- Loop of strlcpy: from `i` characters copied, `n` counting down. -/
theorem cpy_run {s : List Byte} (h : (0 : Byte) ∉ s) (after : List Byte) (dst : Mem) :
    ∀ (fuel i n : Nat), i ≤ s.length → 1 ≤ n → n < fuel → i + n ≤ dst.length →
      (s.length < i + (n - 1) ∧ ∃ k, k ≠ 0 ∧
        cpyLoop (s ++ 0 :: after) fuel (dst.front (s.take i)) i i n =
          some (dst.front (s ++ [0]), s.length + 1, s.length + 1, k)) ∨
      (i + (n - 1) ≤ s.length ∧
        cpyLoop (s ++ 0 :: after) fuel (dst.front (s.take i)) i i n =
          some (dst.front (s.take (i + (n - 1))), i + (n - 1), i + (n - 1), 0)) := by
  intro fuel
  induction fuel with
  | zero => intro i n h1 h2 h3; omega
  | succ fuel ih =>
    intro i n h1 h2 h3 h4
    unfold cpyLoop
    simp only
    by_cases hn : n - 1 = 0
    · right
      rw [if_pos hn, hn]
      exact ⟨by omega, rfl⟩
    · rw [if_neg hn]
      by_cases hi : i < s.length
      · obtain ⟨c, hc, hc0, htk⟩ := no0_get h after hi
        rw [hc]
        have hl : (s.take i).length = i := by simp; omega
        simp only
        rw [Mem.poke_front' _ hl.symm (by rw [hl]; omega)]
        simp only [hc0, if_false]
        rw [← htk]
        rcases ih (i + 1) (n - 1) (by omega) (by omega) (by omega) (by omega) with
          ⟨h5, k, h6, h7⟩ | ⟨h5, h6⟩
        · left
          exact ⟨by omega, k, h6, h7⟩
        · right
          have e : i + 1 + (n - 1 - 1) = i + (n - 1) := by omega
          rw [e] at h6
          exact ⟨by omega, h6⟩
      · left
        have : i = s.length := by omega
        subst this
        rw [nul_get, List.take_length]
        simp only
        rw [Mem.poke_front _ (by omega)]
        simp only [if_true]
        exact ⟨by omega, n - 1, hn, rfl⟩

/-- C28 `strlcpy(dst, src, size)` for every C string `s` in `src`, every `size` not above the
destination object: with `size > 0` the destination starts with the longest prefix of `s` of at most
`size - 1` characters and a NUL, everything behind it is unchanged; with `size = 0` nothing is written;
`strlen(src)` is returned. -/
theorem strlcpy_spec (dst : Mem) (s after : List Byte) (size : Nat) (h : (0 : Byte) ∉ s)
    (hs : size ≤ dst.length) :
    strlcpy dst (s ++ 0 :: after) size =
      some (if size = 0 then dst else dst.front (s.take (size - 1) ++ [0]), s.length) := by
  unfold strlcpy cpyHead
  by_cases h0 : size = 0
  · subst h0
    simp only [ne_eq, not_true, if_false, if_true, cpyTerm]
    rw [skip_run h after _ 0 (by omega) (by simp; omega)]
    simp
  · rw [if_pos h0]
    have hr := cpy_run h after dst (size + 1) 0 size (by omega) (by omega) (by omega) (by omega)
    rw [List.take_zero, Mem.front_nil] at hr
    rcases hr with ⟨h5, k, h6, h7⟩ | ⟨h5, h6⟩
    · rw [h7]
      simp only [h6, if_false, h0]
      rw [List.take_of_length_le (by omega)]
      simp
    · rw [h6]
      simp only [cpyTerm, h0, Nat.zero_add, if_pos, ne_eq, not_false_eq_true]
      rw [Nat.zero_add] at h5
      have hl : (s.take (size - 1)).length = size - 1 := by simp; omega
      rw [Mem.poke_front' _ hl.symm (by rw [hl]; omega)]
      simp only
      rw [skip_run h after _ _ h5 (by simp; omega)]
      simp

theorem end_run (dst : Mem) (size : Nat) (hs : size ≤ dst.length) :
    ∀ (fuel d : Nat), d ≤ size → size - d < fuel → (∀ c ∈ dst.take d, c ≠ 0) →
      endLoop dst fuel d (size - d) = some ((dst.take size).takeWhile (· ≠ 0)).length := by
  intro fuel
  induction fuel with
  | zero => intro d h1 h2; omega
  | succ fuel ih =>
    intro d h1 h2 h3
    unfold endLoop
    have key : (dst.take size).takeWhile (· ≠ 0) =
        dst.take d ++ ((dst.take size).drop d).takeWhile (· ≠ 0) := by
      conv => lhs; rw [← List.take_append_drop d (dst.take size)]
      rw [List.take_take, Nat.min_eq_left h1, List.takeWhile_append_of_pos]
      intro c hc; simpa using h3 c hc
    have hdl : (dst.take d).length = d := by simp; omega
    by_cases hz : size - d = 0
    · rw [if_pos hz, key]
      have : (dst.take size).drop d = [] := by apply List.drop_eq_nil_of_le; simp; omega
      rw [this]; simp; omega
    · rw [if_neg hz]
      have hlt : d < dst.length := by omega
      have hg : dst[d]? = some dst[d] := by simp [hlt]
      rw [hg]
      simp only
      by_cases hc : dst[d] = 0
      · rw [if_pos hc, key, List.drop_eq_getElem_cons (by simp; omega), List.takeWhile_cons]
        simp [hc]; omega
      · rw [if_neg hc]
        have e : size - d - 1 = size - (d + 1) := by omega
        rw [e]
        apply ih (d + 1) (by omega) (by omega)
        intro c hm
        rw [List.take_add_one, hg, List.mem_append] at hm
        rcases hm with hm | hm
        · exact h3 c hm
        · simp only [Option.toList_some, List.mem_singleton] at hm
          rw [hm]; exact hc

theorem cat_run {s : List Byte} (h : (0 : Byte) ∉ s) (after : List Byte) (dst : Mem) (a : List Byte)
    (size : Nat) (hsize : size ≤ dst.length) :
    ∀ (fuel i : Nat), i ≤ s.length → s.length < fuel + i → a.length < size →
      catLoop (s ++ 0 :: after) fuel (dst.front (a ++ s.take (min i (size - a.length - 1))))
          (a.length + min i (size - a.length - 1)) i (size - a.length - min i (size - a.length - 1)) =
        some (dst.front (a ++ s.take (size - a.length - 1)),
          a.length + min s.length (size - a.length - 1), s.length) := by
  intro fuel
  induction fuel with
  | zero => intro i h1 h2; omega
  | succ fuel ih =>
    intro i h1 h2 h3
    unfold catLoop
    by_cases hi : i < s.length
    · obtain ⟨c, hc, hc0, htk⟩ := no0_get h after hi
      rw [hc]
      simp only [hc0, if_false]
      by_cases hn : i < size - a.length - 1
      · have hm : min i (size - a.length - 1) = i := by omega
        have hm' : min (i + 1) (size - a.length - 1) = i + 1 := by omega
        rw [hm]
        rw [if_pos (by omega)]
        have hl : (a ++ s.take i).length = a.length + i := by simp; omega
        rw [Mem.poke_front' _ hl.symm (by rw [hl]; omega)]
        simp only
        have := ih (i + 1) (by omega) (by omega) h3
        rw [hm', htk, ← List.append_assoc] at this
        rw [← this]
        congr 1
      · have hm : min i (size - a.length - 1) = size - a.length - 1 := by omega
        have hm' : min (i + 1) (size - a.length - 1) = size - a.length - 1 := by omega
        rw [hm]
        rw [if_neg (by omega)]
        have := ih (i + 1) (by omega) (by omega) h3
        rw [hm'] at this
        exact this
    · have : i = s.length := by omega
      subst this
      rw [nul_get]
      simp only [if_true]
      congr 4
      by_cases hm : s.length ≤ size - a.length - 1
      · rw [Nat.min_eq_left hm, List.take_length, List.take_of_length_le hm]
      · rw [Nat.min_eq_right (by omega)]

/-- C28 `strlcat(dst, src, size)`: let `a` be the string found in the first `size` bytes of `dst` (all
`size` of them if they contain no NUL).  If there is no NUL nothing is written; otherwise as much of
the source as fits in `size` bytes is appended to `a`, NUL-terminated, and everything behind is
unchanged.  Returned: `min(size, strlen(dst)) + strlen(src)`. -/
theorem strlcat_spec (dst : Mem) (s after : List Byte) (size : Nat) (h : (0 : Byte) ∉ s)
    (hs : size ≤ dst.length) :
    let a := (dst.take size).takeWhile (· ≠ 0)
    strlcat dst (s ++ 0 :: after) size =
      some (if a.length = size then dst else dst.front (a ++ s.take (size - a.length - 1) ++ [0]),
        a.length + s.length) := by
  intro a
  have he := end_run dst size hs (size + 1) 0 (by omega) (by omega) (by simp)
  rw [Nat.sub_zero] at he
  have ha : (dst.take size).takeWhile (· ≠ 0) = a := rfl
  clear_value a
  rw [ha] at he
  have hp : a <+: dst.take size := by rw [← ha]; exact List.takeWhile_prefix _
  clear ha
  have hal : a.length ≤ size := by
    have h1 := hp.length_le
    simp at h1; omega
  unfold strlcat
  rw [he]
  by_cases hz : size - a.length = 0
  · have e : a.length = size := by omega
    simp only
    rw [if_pos hz, if_pos e]
    simp [Mem.strlen, Mem.cstr_zero h]
  · have e : a.length ≠ size := by omega
    have hfront : dst.front a = dst := by
      obtain ⟨t, ht⟩ := hp.trans (List.take_prefix _ _)
      rw [← ht]
      simp [Mem.front]
    have hr := cat_run h after dst a size hs ((s ++ 0 :: after).length + 1) 0 (by omega)
      (by simp; omega) (by omega)
    rw [Nat.zero_min, List.take_zero, List.append_nil, hfront, Nat.sub_zero] at hr
    simp only [Nat.add_zero] at hr
    simp only
    rw [if_neg hz, if_neg e, hr]
    simp only
    have hl : a.length + min s.length (size - a.length - 1) =
      (a ++ s.take (size - a.length - 1)).length := by simp; omega
    rw [Mem.poke_front' _ hl (by rw [← hl]; omega)]
    simp

/-- The destination of `strlcat`, as the caller sees it: for a destination string `a` shorter than
`size`. -/
theorem strlcat_string (a more s after : List Byte) (size : Nat) (ha : (0 : Byte) ∉ a)
    (h : (0 : Byte) ∉ s) (hlt : a.length < size) (hs : size ≤ (a ++ 0 :: more).length) :
    ∃ dst', strlcat (a ++ 0 :: more) (s ++ 0 :: after) size = some (dst', a.length + s.length) ∧
      dst'.cstr 0 = some (a ++ s.take (size - a.length - 1)) := by
  have key := strlcat_spec (a ++ 0 :: more) s after size h hs
  have e1 : ((a ++ 0 :: more).take size).takeWhile (· ≠ 0) = a := by
    have : (a ++ 0 :: more).take size = a ++ 0 :: more.take (size - a.length - 1) := by
      rw [List.take_append, List.take_of_length_le (by omega)]
      congr 1
      obtain ⟨k, hk⟩ : ∃ k, size - a.length = k + 1 := ⟨size - a.length - 1, by omega⟩
      rw [hk]; simp
    rw [this, takeWhile_no0 ha]
  simp only [e1] at key
  refine ⟨_, key, ?_⟩
  rw [if_neg (by omega)]
  unfold Mem.front
  rw [List.append_assoc, List.singleton_append]
  apply Mem.cstr_zero
  intro hm
  rcases List.mem_append.mp hm with hm | hm
  · exact ha hm
  · exact h (List.mem_of_mem_take hm)

/-- `strndup(s, n)` (Windows build): a fresh NUL-terminated copy of the first `min(n, strlen s)`
characters in a block of exactly that size plus one. -/
theorem strndup_spec (s after : List Byte) (n : Nat) (mem : Nat → Option Mem) (h : (0 : Byte) ∉ s)
    (hm : ∀ k b, mem k = some b → b.length = k) :
    strndup (s ++ 0 :: after) n mem =
      some ((mem ((s.take n).length + 1)).map fun _ => s.take n ++ [0]) := by
  have e : ((s ++ 0 :: after).take n).takeWhile (· ≠ 0) = s.take n := by
    by_cases hn : n ≤ s.length
    · rw [List.take_append_of_le_length hn]
      have : (s.take n).takeWhile (· ≠ 0) = s.take n := by
        rw [← List.append_nil (s.take n), List.takeWhile_append_of_pos]
        · simp
        · intro c hc
          simp only [decide_eq_true_eq]
          intro e0
          exact h (e0 ▸ List.mem_of_mem_take hc)
      exact this
    · obtain ⟨k, hk⟩ : ∃ k, n - s.length = k + 1 := ⟨n - s.length - 1, by omega⟩
      rw [List.take_append, hk, List.take_succ_cons, List.take_of_length_le (by omega),
        takeWhile_no0 h]
  unfold strndup
  simp only [e]
  rw [if_neg (by simp; omega)]
  cases hb : mem ((s.take n).length + 1) with
  | none => rfl
  | some b =>
    have hl := hm _ _ hb
    simp only
    rw [Mem.store_eq_some (by omega)]
    simp only [Nat.zero_add, List.take_zero, List.nil_append, Option.map_some]
    have := Mem.poke_front (out := b) (w := s.take n) 0 (by omega)
    unfold Mem.front at this
    rw [this]
    simp only [Option.map_some]
    have hd : b.drop (s.take n ++ [0]).length = [] := by
      apply List.drop_eq_nil_of_le; simp at hl ⊢; omega
    rw [hd]; simp

/-- `strndup(s, n)` of an object without a NUL in its first `n` bytes: it reads those `n` bytes only, and copies them. -/
theorem strndup_array (src : List Byte) (n : Nat) (mem : Nat → Option Mem) (hn : n ≤ src.length)
    (h : (0 : Byte) ∉ src.take n) (hm : ∀ k b, mem k = some b → b.length = k) :
    strndup src n mem = some ((mem (n + 1)).map fun _ => src.take n ++ [0]) := by
  have hl : (src.take n).length = n := by rw [List.length_take]; omega
  have e : (src.take n).takeWhile (· ≠ 0) = src.take n := by
    rw [← List.append_nil (src.take n), List.takeWhile_append_of_pos]
    · simp
    · intro c hc
      simp only [decide_eq_true_eq]
      intro e0
      exact h (e0 ▸ hc)
  unfold strndup
  simp only [e, hl]
  rw [if_neg (by omega)]
  cases hb : mem (n + 1) with
  | none => rfl
  | some b =>
    have hl' := hm _ _ hb
    simp only
    rw [Mem.store_eq_some (by omega)]
    simp only [Nat.zero_add, List.take_zero, List.nil_append, Option.map_some]
    have := Mem.poke_front (out := b) (w := src.take n) 0 (by omega)
    unfold Mem.front at this
    rw [hl] at this
    rw [hl, this]
    simp only [Option.map_some]
    have hd : b.drop (src.take n ++ [0]).length = [] := by
      apply List.drop_eq_nil_of_le; simp at hl ⊢; omega
    rw [hd]; simp

/-- Truncating copy and append. -/
example : strlcpy (List.replicate 6 9) [97, 98, 99, 100, 0, 5] 4 = some ([97, 98, 99, 0, 9, 9], 4) := by
  decide +kernel
example : strlcat [97, 98, 0, 9, 9, 9] [99, 100, 101, 0] 5 = some ([97, 98, 99, 100, 0, 9], 5) := by
  decide +kernel
example : strlcat [97, 98, 99] [99, 100, 101, 0] 3 = some ([97, 98, 99], 6) := by decide +kernel
example : strndup [97, 98, 99, 0] 2 (fun k => some (List.replicate k 7)) = some (some [97, 98, 0]) := by
  decide +kernel

end Verif.Strings
