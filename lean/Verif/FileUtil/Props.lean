import Verif.FileUtil.Lemmas
/-! # C47, C48, C58, C59, C60: the file utilities -/
namespace Verif.FileUtil
open Spec

/-! ### C47 -/

/-- **C47**: whatever counts the system chooses, `file_util_write` transfers in order the first `n` bytes of the
buffer, where `n` is what it returns; it stops before everything is written only because the system's last answer
was an error or 0, and all earlier answers were positive. -/
theorem write_transfers (sched : Nat → Int) (old : List Byte) (m : Mem) (max : Nat) (hm : max < 2 ^ 31)
    (hl : max ≤ m.length) :
    ∃ calls n, write sched { data := old, calls := 0 } m max =
        some ({ data := old ++ m.take n, calls := calls + 1 }, m, n) ∧ n ≤ max ∧
      (∀ i < calls, 1 ≤ sched i) ∧ (n < max → sched calls < 1) := by
  obtain ⟨k, n, e, _, h2, h3, h4⟩ := writeLoop sched max hm (max + 1) { data := old, calls := 0 } m 0 (by omega)
    (by omega) (by omega) hl
  refine ⟨k, n, ?_, h2, ?_, ?_⟩
  · unfold write rwFile
    rw [e]; simp
  · intro i hi; have := h3 i hi; simpa using this
  · intro hn
    rcases h4 with h4 | h4
    · omega
    · simpa using h4

/-- With a system that always makes progress everything is written. -/
theorem write_all (sched : Nat → Int) (old : List Byte) (m : Mem) (max : Nat) (hm : max < 2 ^ 31)
    (hl : max ≤ m.length) (hs : ∀ i, 1 ≤ sched i) :
    ∃ calls, write sched { data := old, calls := 0 } m max = some ({ data := old ++ m.take max, calls := calls }, m, max) := by
  obtain ⟨k, n, e, h1, _, h4⟩ := write_transfers sched old m max hm hl
  have : n = max := by
    by_cases h : n < max
    · have := h4 h; have := hs k; omega
    · omega
  subst this
  exact ⟨k + 1, e⟩

/-- **C47**: `file_util_read` puts the next `n` bytes of the file at the start of the buffer, leaves the rest of
the buffer alone, and returns `n`; it stops early only at the end of the file or because the system's last answer
was an error or 0. -/
theorem read_transfers (sched : Nat → Int) (file : List Byte) (m : Mem) (max : Nat) (hm : max < 2 ^ 31)
    (hl : max ≤ m.length) :
    ∃ calls n, read sched { data := file, calls := 0 } m max =
        some ({ data := file.drop n, calls := calls + 1 }, file.take n ++ m.drop n, n) ∧ n ≤ max ∧ n ≤ file.length ∧
      (∀ i < calls, 1 ≤ sched i) ∧ (n < max → n < file.length → sched calls < 1) := by
  obtain ⟨k, n, e, _, h2, h0, h3, h4⟩ := readLoop sched max hm (max + 1) { data := file, calls := 0 } m 0 (by omega)
    (by omega) (by omega) hl
  refine ⟨k, n, ?_, h2, by simpa using h0, ?_, ?_⟩
  · unfold read rwFile
    rw [e]; simp
  · intro i hi; have := h3 i hi; simpa using this
  · intro hn hf
    rcases h4 with h4 | h4 | h4
    · omega
    · simp only [] at h4; omega
    · simpa using h4

/-- With a system that always makes progress everything up to the end of the file is read. -/
theorem read_all_available (sched : Nat → Int) (file : List Byte) (m : Mem) (max : Nat) (hm : max < 2 ^ 31)
    (hl : max ≤ m.length) (hs : ∀ i, 1 ≤ sched i) :
    ∃ calls, read sched { data := file, calls := 0 } m max =
      some ({ data := file.drop (min max file.length), calls := calls },
        file.take (min max file.length) ++ m.drop (min max file.length), min max file.length) := by
  obtain ⟨k, n, e, h1, h2, _, h4⟩ := read_transfers sched file m max hm hl
  have : n = min max file.length := by
    by_cases h : n < max
    · by_cases h' : n < file.length
      · have := h4 h h'; have := hs k; omega
      · omega
    · omega
  subst this
  exact ⟨k + 1, e⟩

/-- Finding: a single call that transfers 2^31 bytes is reported as nothing transferred, the count being
converted to `int`. -/
theorem huge_write_reports_nothing (m : Mem) (hl : m.length = 2 ^ 31) :
    ∃ s, write (fun _ => 2 ^ 31) { data := [], calls := 0 } m (2 ^ 31) = some (s, m, 0) ∧ s.data = m := by
  have hcall : osWrite (fun _ => 2 ^ 31) { data := [], calls := 0 } m 0 (sizeSub (2 ^ 31) 0) =
      some ({ data := m, calls := 1 }, m, (2 ^ 31 : Int)) := by
    have hc : sizeSub (2 ^ 31) 0 = 2 ^ 31 := by unfold sizeSub; omega
    rw [hc]
    unfold osWrite
    have : (if ((2 : Int) ^ 31) < 0 then (-1 : Int) else min (2 ^ 31) ((2 ^ 31 : Nat) : Int)) = 2 ^ 31 := by omega
    simp only [this]
    have h2 : ((2 : Int) ^ 31).toNat = m.length := by omega
    rw [h2, Mem.load_eq_some (by omega)]
    simp
  refine ⟨{ data := m, calls := 1 }, ?_, rfl⟩
  unfold write rwFile
  rw [rwLoop, hcall]
  have ht : toInt (2 ^ 31 : Int) < 1 := by unfold toInt; omega
  rw [Option.bind_eq_bind, Option.bind_some]
  show (if toInt (2 ^ 31 : Int) < 1 then _ else _) = _
  rw [if_pos ht]
  rfl

/-! ### C48 -/

/-- **C48** (for paths without trailing spaces; missing: see `trailing_spaces_break_append_slash`): the text left in
the buffer is NUL-terminated within `size` bytes, ends in the path's separator, and is the path itself or the path
followed by the separator; only when the path fills the buffer is its last character replaced instead. Nothing
beyond the first `size` bytes is touched. -/
theorem append_slash_partial {path after : List Byte} {size : Nat} (h0 : (0 : Byte) ∉ path) (hs : path.length < size)
    (hm : size ≤ (path ++ 0 :: after).length) (hne : path ≠ []) (h3 : 3 ≤ size) (hsp : path.getLast? ≠ some 32) :
    ∃ m t, appendSlash (path ++ 0 :: after) size = some (m, 0) ∧ m.cstr 0 = some t ∧ t.length < size ∧
      m.length = (path ++ 0 :: after).length ∧ m.drop size = (path ++ 0 :: after).drop size ∧
      t.getLast? = some (separator path) ∧
      (t = path ∨ t = path ++ [separator path] ∨
        (path.length + 1 = size ∧ t = path.dropLast ++ [separator path])) := by
  have htr : trimmed path = path := by
    obtain ⟨l, c, rfl⟩ : ∃ l c, path = l ++ [c] := ⟨path.dropLast, path.getLast hne, (List.dropLast_concat_getLast hne).symm⟩
    unfold trimmed
    have hc : (c == (32 : Byte)) = false := by
      simp only [List.getLast?_append, List.getLast?_singleton, Option.some_or, ne_eq, Option.some.injEq] at hsp
      simpa using hsp
    simp [hc]
  have hsep : (0 : Byte) ≠ separator path := by unfold separator; split <;> decide
  have hpos : 0 < path.length := List.length_pos_iff.mpr hne
  have e := appendSlash_eq h0 hs hm
  rw [htr, if_neg (by simp [hne]; omega), if_neg hne] at e
  have hlen : (path ++ 0 :: after).length = path.length + 1 + after.length := by simp; omega
  by_cases hl : path.getLast? = some (separator path)
  · rw [if_pos hl] at e
    exact ⟨_, path, e, Mem.cstr_zero h0, hs, rfl, rfl, hl, .inl rfl⟩
  · rw [if_neg hl] at e
    by_cases hr : path.length + 1 < size
    · rw [if_pos hr] at e
      have hrw : path ++ separator path :: 0 :: (path ++ 0 :: after).drop (path.length + 2) =
          (path ++ [separator path]) ++ 0 :: (path ++ 0 :: after).drop (path.length + 2) := by simp
      rw [hrw] at e
      refine ⟨_, path ++ [separator path], e, Mem.cstr_zero (by simp [h0, hsep]), by simp; omega, ?_, ?_, by simp,
        .inr (.inl rfl)⟩
      · simp only [List.length_append, List.length_cons, List.length_drop, List.length_nil]; omega
      · rw [List.drop_append, List.drop_eq_nil_of_le (by simp; omega), List.nil_append]
        obtain ⟨k, hk⟩ : ∃ k, size - (path ++ [separator path]).length = k + 1 := ⟨size - path.length - 2, by simp; omega⟩
        rw [hk, List.drop_succ_cons, List.drop_drop]
        congr 1
        simp at hk; omega
    · rw [if_neg hr] at e
      have hrw : path.dropLast ++ separator path :: 0 :: (path ++ 0 :: after).drop (path.length + 1) =
          (path.dropLast ++ [separator path]) ++ 0 :: (path ++ 0 :: after).drop (path.length + 1) := by simp
      rw [hrw] at e
      have h0' : (0 : Byte) ∉ path.dropLast := fun h => h0 (List.dropLast_subset _ h)
      refine ⟨_, path.dropLast ++ [separator path], e, Mem.cstr_zero (by simp [h0', hsep]), by simp; omega, ?_, ?_, by simp,
        .inr (.inr ⟨by omega, rfl⟩)⟩
      · simp only [List.length_append, List.length_cons, List.length_drop, List.length_nil, List.length_dropLast]; omega
      · rw [List.drop_append, List.drop_eq_nil_of_le (by simp; omega), List.nil_append]
        obtain ⟨k, hk⟩ : ∃ k, size - (path.dropLast ++ [separator path]).length = k + 1 :=
          ⟨size - path.length - 1, by simp; omega⟩
        rw [hk, List.drop_succ_cons, List.drop_drop]
        congr 1
        simp at hk; omega

/-- Memory safety and termination inside the buffer for every path, with or without trailing spaces: bytes beyond
`size` are untouched and the text stays shorter than `size`. -/
theorem append_slash_in_bounds {path after : List Byte} {size : Nat} (h0 : (0 : Byte) ∉ path) (hs : path.length < size)
    (hm : size ≤ (path ++ 0 :: after).length) :
    ∃ m t r, appendSlash (path ++ 0 :: after) size = some (m, r) ∧ m.cstr 0 = some t ∧ t.length < size ∧
      m.length = (path ++ 0 :: after).length ∧ m.drop size = (path ++ 0 :: after).drop size ∧
      (r ≠ 0 → t = path) := by
  have hsep : (0 : Byte) ≠ separator path := by unfold separator; split <;> decide
  obtain ⟨sp, hsp, _⟩ := trimmed_prefix path
  have e := appendSlash_eq h0 hs hm
  generalize trimmed path = T at e hsp
  have hlp : path.length = T.length + sp.length := by
    have := congrArg List.length hsp; rw [List.length_append] at this; exact this
  have hT0 : (0 : Byte) ∉ T := by intro h; apply h0; rw [hsp]; simp [h]
  have hlen : (path ++ 0 :: after).length = path.length + 1 + after.length := by simp; omega
  by_cases h1 : path = [] ∨ size < 3
  · rw [if_pos h1] at e
    exact ⟨_, path, -1, e, Mem.cstr_zero h0, hs, rfl, rfl, fun _ => rfl⟩
  rw [if_neg h1] at e
  by_cases h2 : T = []
  · rw [if_pos h2] at e
    exact ⟨_, path, -2, e, Mem.cstr_zero h0, hs, rfl, rfl, fun _ => rfl⟩
  rw [if_neg h2] at e
  have hpos : 0 < T.length := List.length_pos_iff.mpr h2
  by_cases h3 : T.getLast? = some (separator path)
  · rw [if_pos h3] at e
    exact ⟨_, path, 0, e, Mem.cstr_zero h0, hs, rfl, rfl, fun _ => rfl⟩
  rw [if_neg h3] at e
  by_cases hr : T.length + 1 < size
  · rw [if_pos hr] at e
    have hrw : T ++ separator path :: 0 :: (path ++ 0 :: after).drop (T.length + 2) =
        (T ++ [separator path]) ++ 0 :: (path ++ 0 :: after).drop (T.length + 2) := by simp
    rw [hrw] at e
    refine ⟨_, T ++ [separator path], 0, e, Mem.cstr_zero (by simp [hT0, hsep]), by simp; omega, ?_, ?_,
      fun h => absurd rfl h⟩
    · simp only [List.length_append, List.length_cons, List.length_drop, List.length_nil]; omega
    · rw [List.drop_append, List.drop_eq_nil_of_le (by simp; omega), List.nil_append]
      obtain ⟨k, hk⟩ : ∃ k, size - (T ++ [separator path]).length = k + 1 := ⟨size - T.length - 2, by simp; omega⟩
      rw [hk, List.drop_succ_cons, List.drop_drop]
      congr 1
      simp at hk; omega
  · rw [if_neg hr] at e
    have hrw : T.dropLast ++ separator path :: 0 :: (path ++ 0 :: after).drop (T.length + 1) =
        (T.dropLast ++ [separator path]) ++ 0 :: (path ++ 0 :: after).drop (T.length + 1) := by simp
    rw [hrw] at e
    have h0' : (0 : Byte) ∉ T.dropLast := fun h => hT0 (List.dropLast_subset _ h)
    refine ⟨_, T.dropLast ++ [separator path], 0, e, Mem.cstr_zero (by simp [h0', hsep]), by simp; omega, ?_, ?_,
      fun h => absurd rfl h⟩
    · simp only [List.length_append, List.length_cons, List.length_drop, List.length_nil, List.length_dropLast]; omega
    · rw [List.drop_append, List.drop_eq_nil_of_le (by simp; omega), List.nil_append]
      obtain ⟨k, hk⟩ : ∃ k, size - (T.dropLast ++ [separator path]).length = k + 1 :=
        ⟨size - T.length - 1, by simp; omega⟩
      rw [hk, List.drop_succ_cons, List.drop_drop]
      congr 1
      simp at hk; omega

/-- The exact effect for every path: trailing spaces are cut, the separator is put after the rest (or over its last
character when there is no room) — unless what precedes the trailing spaces already ends in the separator. -/
theorem append_slash_exact {path after : List Byte} {size : Nat} (h0 : (0 : Byte) ∉ path) (hs : path.length < size)
    (hm : size ≤ (path ++ 0 :: after).length) :
    appendSlash (path ++ 0 :: after) size = some
      (if path = [] ∨ size < 3 then (path ++ 0 :: after, -1)
       else if trimmed path = [] then (path ++ 0 :: after, -2)
       else if (trimmed path).getLast? = some (separator path) then (path ++ 0 :: after, 0)
       else if (trimmed path).length + 1 < size then
         (trimmed path ++ separator path :: 0 :: (path ++ 0 :: after).drop ((trimmed path).length + 2), 0)
       else ((trimmed path).dropLast ++ separator path :: 0 :: (path ++ 0 :: after).drop ((trimmed path).length + 1), 0)) :=
  appendSlash_eq h0 hs hm

/-- Finding: `"a/ "` is reported as fine although it does not end in a slash: the full property is false. -/
theorem trailing_spaces_break_append_slash :
    appendSlash [97, 47, 32, 0, 0, 0] 6 = some ([97, 47, 32, 0, 0, 0], 0) := by decide

/-- Finding: a path containing a backslash and ending in `/` gets a second separator: `a\b/` becomes `a\b/\`. -/
theorem mixed_slashes_get_two :
    appendSlash [97, 92, 98, 47, 0, 0] 6 = some ([97, 92, 98, 47, 92, 0], 0) := by decide

/-- Finding: `"abcd"` in a buffer of 5 bytes loses its last character: the result is `"abc/"`. -/
theorem full_buffer_loses_last_character :
    appendSlash [97, 98, 99, 100, 0] 5 = some ([97, 98, 99, 47, 0], 0) := by decide

/-- Finding: if the buffer holds no terminator at all, `strstr` runs past it. -/
theorem unterminated_path_is_undefined : appendSlash [97, 98, 99] 3 = none := by decide

/-! ### C58 -/

/-- **C58**: for a path of at most 255 characters, `file_util_mkdirs` treats its directory prefixes from shortest to
longest: the existing ones are skipped, the missing ones created, and the first failure ends the work and is
returned. -/
theorem mkdirs_eq {σ : Type} (fs : Fs σ) (s : σ) (path : List Byte) (h0 : (0 : Byte) ∉ path) (hl : path.length < 256) :
    mkdirs fs s path = some (makeAll fs s (folders path)) := by
  unfold mkdirs
  rw [if_neg (by omega), folders_eq]
  exact mkdirsLoop_eq fs path [] s (by simp) h0 (by rw [List.length_nil]; omega)

/-- What one expects of a file system: a directory that was created exists, and creating one removes none. -/
structure Sane {σ : Type} (fs : Fs σ) : Prop where
  created : ∀ s p, (fs.mkdir s p).2 = 0 → fs.access (fs.mkdir s p).1 p = true
  keeps : ∀ s p q, fs.access s q = true → fs.access (fs.mkdir s p).1 q = true

theorem makeAll_keeps {σ : Type} {fs : Fs σ} (hs : Sane fs) (ps : List (List Byte)) : ∀ (s : σ) (q : List Byte),
    fs.access s q = true → fs.access (makeAll fs s ps).1 q = true := by
  induction ps with
  | nil => intro s q h; exact h
  | cons p ps ih =>
    intro s q h
    unfold makeAll
    split
    · exact ih _ _ h
    · split
      · exact hs.keeps _ _ _ h
      · exact ih _ _ (hs.keeps _ _ _ h)

theorem makeAll_exist {σ : Type} {fs : Fs σ} (hs : Sane fs) (ps : List (List Byte)) : ∀ (s : σ),
    (makeAll fs s ps).2 = 0 → ∀ p ∈ ps, fs.access (makeAll fs s ps).1 p = true := by
  induction ps with
  | nil => intro s _ p hp; simp at hp
  | cons p ps ih =>
    intro s h q hq
    unfold makeAll at h ⊢
    rw [List.mem_cons] at hq
    by_cases ha : fs.access s p = true
    · rw [if_pos ha] at h ⊢
      rcases hq with rfl | hq
      · exact makeAll_keeps hs ps _ _ ha
      · exact ih s h q hq
    · rw [if_neg ha] at h ⊢
      by_cases hd : (fs.mkdir s p).2 ≠ 0
      · rw [if_pos hd] at h; exact absurd h hd
      · rw [if_neg hd] at h ⊢
        rcases hq with rfl | hq
        · exact makeAll_keeps hs ps _ _ (hs.created _ _ (by omega))
        · exact ih _ h q hq

/-- **C58**: if it returns 0, every directory prefix of the path exists afterwards. -/
theorem mkdirs_success {σ : Type} {fs : Fs σ} (hs : Sane fs) {s s' : σ} {path : List Byte} (h0 : (0 : Byte) ∉ path)
    (hl : path.length < 256) (h : mkdirs fs s path = some (s', 0)) :
    ∀ i < path.length, path[i]? = some 47 ∨ path[i]? = some 92 → fs.access s' (path.take (i + 1)) = true := by
  rw [mkdirs_eq fs s path h0 hl, Option.some.injEq] at h
  intro i hi hc
  have h2 : (makeAll fs s (folders path)).2 = 0 := by rw [h]
  have := makeAll_exist hs (folders path) s h2 (path.take (i + 1)) (by
    unfold folders
    rw [List.mem_map]
    refine ⟨i, ?_, rfl⟩
    rw [List.mem_filter, List.mem_range]
    refine ⟨hi, ?_⟩
    rw [List.getD_eq_getElem?_getD]
    rcases hc with hc | hc <;> simp [hc])
  rw [h] at this
  exact this

/-- Finding: a path of exactly 256 characters is let through, but the copy has no room for a terminator: with its
only separator at the very end, `access` reads past the array. -/
theorem path_of_256_is_undefined {σ : Type} (fs : Fs σ) (s : σ) (w : List Byte) (hl : w.length = 255)
    (hw : ∀ c ∈ w, c ≠ 92 ∧ c ≠ 47) (h0 : (0 : Byte) ∉ w) : mkdirs fs s (w ++ [47]) = none := by
  unfold mkdirs
  rw [if_neg (by rw [List.length_append, hl, List.length_singleton]; omega)]
  have h := mkdirsLoop_plain fs s w [47] [] hw (by rw [List.length_nil]; omega)
  rw [List.nil_append, List.nil_append, List.length_nil, hl] at h
  rw [show List.replicate 256 (0 : Byte) = List.replicate (256 - 0) 0 from rfl, h]
  have hst : Mem.store (w ++ List.replicate (256 - 255) 0) 255 [47] = some (w ++ [47]) := by
    rw [Mem.store_eq_some (by rw [List.length_append, hl, List.length_replicate, List.length_singleton]; omega),
      ← hl, List.take_left, List.drop_eq_nil_of_le (by rw [List.length_append, hl, List.length_replicate, List.length_singleton]; omega),
      List.append_nil]
  have hcs : Mem.cstr (w ++ [47]) 0 = none := by
    unfold Mem.cstr
    have ht : (w ++ [47]).takeWhile (fun x => decide (x ≠ (0 : Byte))) = w ++ [47] := by
      have h47 : (0 : Byte) ∉ w ++ [47] := by simp [h0]
      have hall : ∀ l : List Byte, (0 : Byte) ∉ l → l.takeWhile (fun x => decide (x ≠ (0 : Byte))) = l := by
        intro l
        induction l with
        | nil => intro _; rfl
        | cons c l ih =>
          intro h
          simp only [List.mem_cons, not_or] at h
          rw [List.takeWhile_cons, if_pos (by simpa using Ne.symm h.1), ih h.2]
      exact hall _ h47
    rw [List.drop_zero]
    simp only [ht]
    rw [if_neg (by omega)]
  unfold mkdirsLoop
  rw [hst, Option.bind_eq_bind, Option.bind_some, if_neg (by decide), hcs]
  rfl

example {σ : Type} (fs : Fs σ) (s : σ) : mkdirs fs s (List.replicate 255 97 ++ [47]) = none :=
  path_of_256_is_undefined fs s _ List.length_replicate
    (fun c hc => by rw [List.eq_of_mem_replicate hc]; decide) (fun h => by have := List.eq_of_mem_replicate h; simp at this)

/-- Longer paths are refused without touching the file system. -/
theorem mkdirs_too_long {σ : Type} (fs : Fs σ) (s : σ) (path : List Byte) (h : 256 < path.length) :
    mkdirs fs s path = some (s, -2) := if_pos h

/-- A file system that is a list of directories. -/
def listFs : Fs (List (List Byte)) where
  access s p := s.contains p
  mkdir s p := (p :: s, 0)

theorem listFs_sane : Sane listFs where
  created s p _ := by simp [listFs]
  keeps s p q h := by simp only [listFs, List.contains_cons, Bool.or_eq_true] at h ⊢; exact .inr h

example : mkdirs listFs [[47]] [47, 97, 47, 98, 47] = some ([[47, 97, 47, 98, 47], [47, 97, 47], [47]], 0) := by
  decide +kernel
example : mkdirs listFs [] [97, 98] = some ([], 0) := by decide +kernel

/-! ### C59 -/

theorem split10 (l : List Byte) : (10 : Byte) ∈ l → ∃ a b, l = a ++ 10 :: b ∧ (10 : Byte) ∉ a ∧ l.idxOf 10 = a.length := by
  induction l with
  | nil => intro h; simp at h
  | cons c l ih =>
    intro h
    by_cases hc : c = 10
    · subst hc; exact ⟨[], l, by simp⟩
    · have : (10 : Byte) ∈ l := by
        rw [List.mem_cons] at h
        rcases h with h | h
        · exact absurd h.symm hc
        · exact h
      obtain ⟨a, b, e, h1, h2⟩ := ih this
      refine ⟨c :: a, b, by rw [e]; rfl, by simp [h1, Ne.symm hc], ?_⟩
      rw [List.idxOf_cons]
      have : (c == 10) = false := by simp [hc]
      rw [this]
      simp [h2]

theorem takeWhile_body (body : List Byte) (h10 : (10 : Byte) ∉ body) (tail : List Byte) (ht : tail = [] ∨ tail = [10]) :
    ∃ (b : List Byte) (nl : Bool), (body ++ tail).takeWhile (· != 0) = b ++ (if nl then [10] else []) ∧ (0 : Byte) ∉ b ∧ (10 : Byte) ∉ b := by
  induction body with
  | nil =>
    rcases ht with rfl | rfl
    · exact ⟨[], false, by simp⟩
    · exact ⟨[], true, by simp⟩
  | cons c body ih =>
    simp only [List.mem_cons, not_or] at h10
    by_cases hc : c = 0
    · subst hc; exact ⟨[], false, by simp⟩
    · obtain ⟨b, nl, e, h1, h2⟩ := ih h10.2
      refine ⟨c :: b, nl, ?_, by simp [h1, Ne.symm hc], by simp [h2, h10.1]⟩
      rw [List.cons_append, List.takeWhile_cons, if_pos (by simpa using hc), e]
      rfl

theorem piece_text (data : List Byte) (n : Nat) (hn : n = min 1023 (min (data.idxOf 10 + 1) data.length)) :
    ∃ (b : List Byte) (nl : Bool), (data.take n).takeWhile (· != 0) = b ++ (if nl then [10] else []) ∧ (0 : Byte) ∉ b ∧ (10 : Byte) ∉ b := by
  by_cases h : (10 : Byte) ∈ data
  · obtain ⟨a, b, e, h1, h2⟩ := split10 data h
    rw [h2] at hn
    by_cases hs : n ≤ a.length
    · have : data.take n = a.take n ++ [] := by rw [e, List.take_append_of_le_length hs, List.append_nil]
      rw [this]
      exact takeWhile_body _ (fun hh => h1 (List.mem_of_mem_take hh)) [] (.inl rfl)
    · have : data.take n = a ++ [10] := by
        rw [show n = a.length + 1 by omega, e, List.take_append, List.take_of_length_le (by omega)]
        simp
      rw [this]
      exact takeWhile_body _ h1 [10] (.inr rfl)
  · have := takeWhile_body (data.take n) (fun hh => h (List.mem_of_mem_take hh)) [] (.inl rfl)
    simpa using this

theorem takeWhile_then (l x : List Byte) : ∃ after, l ++ 0 :: x = l.takeWhile (· != 0) ++ 0 :: after := by
  induction l with
  | nil => exact ⟨x, rfl⟩
  | cons c l ih =>
    by_cases hc : c = 0
    · subst hc; exact ⟨l ++ 0 :: x, by simp⟩
    · obtain ⟨a, e⟩ := ih
      refine ⟨a, ?_⟩
      rw [List.takeWhile_cons, if_pos (by simpa using hc), List.cons_append, e, List.cons_append]

theorem readTxtLoop_eq {σ : Type} (h : σ → Nat → List Byte → σ × Int) : ∀ (fuel : Nat) (u : σ) (buf : Mem)
    (data : List Byte) (num : Nat), data.length < fuel → buf.length = 1024 →
    readTxtLoop h fuel u buf data num = some (deliver h u num (pieces data)) := by
  intro fuel
  induction fuel with
  | zero => intro u buf data num h1; omega
  | succ fuel ih =>
    intro u buf data num h1 h2
    cases data with
    | nil =>
      unfold pieces
      rfl
    | cons c rest =>
      unfold pieces
      generalize hd : c :: rest = data at *
      have hne : data ≠ [] := by rw [← hd]; simp
      have hpos : 0 < data.length := List.length_pos_iff.mpr hne
      simp only []
      generalize hn : min 1023 (min (data.idxOf 10 + 1) data.length) = n at *
      unfold readTxtLoop fgets
      rw [if_neg hne, hn]
      simp only []
      have htl : (data.take n).length = n := by rw [List.length_take]; omega
      rw [Mem.store_eq_some (by simp only [List.length_append, List.length_singleton]; omega)]
      simp only [List.take_zero, List.nil_append, Nat.zero_add, List.append_assoc, List.singleton_append,
        Option.map_some, Option.bind_eq_bind, Option.bind_some, Option.pure_def]
      generalize hX : List.drop (data.take n ++ [(0 : Byte)]).length buf = X
      have hXl : (data.take n ++ 0 :: X).length = 1024 := by
        rw [← hX]
        simp only [List.length_append, List.length_cons, List.length_drop, List.length_nil]; omega
      obtain ⟨b, nl, hb, hb0, hb10⟩ := piece_text data n hn.symm
      obtain ⟨after, ha⟩ := takeWhile_then (data.take n) X
      rw [ha, hb] at hXl ⊢
      obtain ⟨buf', e, hbl, ht⟩ := lineText_eq (body := b) (after := after) (nl := nl) hb0 hb10
      rw [e]
      have hlt : (data.drop n).length < fuel := by rw [List.length_drop]; omega
      simp only [Option.bind_some, deliver]
      rw [hb]
      cases hc : content (b ++ if nl = true then [10] else []) with
      | none =>
        simp only [Option.map_none]
        exact ih _ _ _ _ hlt (by rw [hbl, hXl])
      | some t =>
        simp only [Option.map_some]
        rw [ht t hc]
        simp only [Option.bind_some]
        by_cases hz : (h u num t).2 ≠ 0
        · rw [if_pos hz, if_pos hz]
        · rw [if_neg hz, if_neg hz]
          exact ih _ _ _ _ hlt (by rw [hbl, hXl])

/-- **C59**: for every file, handler and initial buffer contents, `file_util_read_txt` calls the handler exactly for
the non-blank lines, in order, with the number of the line and its text without line end and leading white space,
until it returns non-zero, and returns that value (else 0); lines longer than 1023 bytes are delivered (and counted)
in pieces. -/
theorem read_txt_delivers {σ : Type} (h : σ → Nat → List Byte → σ × Int) (u : σ) (data : List Byte) (garbage : Mem)
    (hg : garbage.length = 1024) : readTxt h u (some data) garbage = some (deliver h u 0 (pieces data)) :=
  readTxtLoop_eq h _ u garbage data 0 (by omega) hg

/-- The pieces are the whole file. -/
theorem pieces_flatten (data : List Byte) : (pieces data).flatten = data := by
  generalize hl : data.length = len
  induction len using Nat.strongRecOn generalizing data with
  | _ len ih =>
    cases data with
    | nil => unfold pieces; rfl
    | cons c rest =>
      unfold pieces
      simp only [List.flatten_cons]
      rw [ih _ _ _ rfl]
      · exact List.take_append_drop _ _
      · rw [← hl]
        simp only [List.length_drop, List.length_cons]
        omega

/-- Every piece but the last ends in a line feed or has 1023 bytes, and a line feed occurs only at its end: with
`pieces_flatten` this says what the pieces are. -/
theorem pieces_shape (data : List Byte) : ∀ p ∈ pieces data, p ≠ [] ∧ p.length ≤ 1023 ∧ (10 : Byte) ∉ p.dropLast := by
  generalize hl : data.length = len
  induction len using Nat.strongRecOn generalizing data with
  | _ len ih =>
    cases data with
    | nil => unfold pieces; simp
    | cons c rest =>
      unfold pieces
      simp only [List.mem_cons, forall_eq_or_imp]
      constructor
      · generalize hd : c :: rest = data at *
        generalize hn : min 1023 (min (data.idxOf 10 + 1) data.length) = n
        have hpos : 0 < data.length := by rw [← hd]; simp
        have hlen : (data.take n).length = n := by rw [List.length_take]; omega
        refine ⟨?_, by omega, ?_⟩
        · intro h; have := congrArg List.length h; simp only [hlen, List.length_nil] at this; omega
        · rw [List.dropLast_eq_take, hlen, List.take_take]
          by_cases h : (10 : Byte) ∈ data
          · obtain ⟨a, b, e, h1, h2⟩ := split10 data h
            rw [h2] at hn
            rw [e, List.take_append_of_le_length (by omega)]
            exact fun hh => h1 (List.mem_of_mem_take hh)
          · exact fun hh => h (List.mem_of_mem_take hh)
      · exact ih _ (by rw [← hl]; simp only [List.length_drop, List.length_cons]; omega) _ rfl

theorem read_txt_no_file {σ : Type} (h : σ → Nat → List Byte → σ × Int) (u : σ) (garbage : Mem) :
    readTxt h u none garbage = some (u, -1) := rfl

/-- A handler that collects everything it is told. -/
def collect : List (Nat × List Byte) → Nat → List Byte → List (Nat × List Byte) × Int :=
  fun u n t => (u ++ [(n, t)], 0)

-- " a\r\n\n\tb" : lines 0 and 2
example : readTxt collect [] (some [32, 97, 13, 10, 10, 9, 98]) (List.replicate 1024 7) =
    some ([(0, [97]), (2, [98])], 0) := by decide +kernel
example : pieces [97, 10, 98] = [[97, 10], [98]] := by decide +kernel

/-! ### C60 -/

/-- **C60**: `file_util_read_all` returns the contents exactly, followed by a NUL, with the exact length, for a
non-empty file that can be opened and read in full; in every other case it returns no memory and a non-zero code. -/
theorem read_all_exact (data : List Byte) (g : Nat → Byte) (got : Nat) (hne : data ≠ []) (hb : data.length < 2 ^ 31) :
    readAll (some data) (some g) got =
      if data.length ≤ got then some (some (data ++ [0]), (data.length : Int), 0)
      else some (none, (data.length : Int), -5) := by
  have hpos : 0 < data.length := List.length_pos_iff.mpr hne
  have ht : toInt (data.length : Int) = data.length := toInt_eq (by omega) (by omega)
  unfold readAll
  simp only []
  rw [ht, if_neg (by omega), Mem.store_eq_some (by simp)]
  simp only [Option.bind_eq_bind, Option.bind_some]
  generalize hM : List.take data.length ((List.range (data.length + 1)).map g) = M
  have hMl : M.length = data.length := by rw [← hM]; simp
  have hdrop : List.drop (data.length + [(0 : Byte)].length) ((List.range (data.length + 1)).map g) = [] :=
    List.drop_eq_nil_of_le (by simp)
  rw [hdrop, List.append_nil]
  have hnl : (data.take (min got data.length)).length = min got data.length := by rw [List.length_take]; omega
  rw [Mem.store_eq_some (by simp only [List.length_append, List.length_singleton]; omega)]
  simp only [Option.bind_some, Nat.zero_add, List.take_zero, List.nil_append]
  by_cases h : data.length ≤ got
  · rw [if_pos h, if_neg (by omega)]
    rw [hnl, Nat.min_eq_right h, List.take_length, List.drop_append, List.drop_eq_nil_of_le (by omega)]
    simp [hMl]
  · rw [if_neg h, if_pos (by omega)]
    rfl

theorem read_all_failures (g : Option (Nat → Byte)) (got : Nat) (data : List Byte) (hne : data ≠ []) :
    readAll none g got = some (none, -1, -2) ∧ readAll (some []) g got = some (none, 0, -3) ∧
    ∃ len, readAll (some data) none got = some (none, len, -4) := by
  have hpos : 0 < data.length := List.length_pos_iff.mpr hne
  refine ⟨rfl, rfl, toInt data.length, ?_⟩
  unfold readAll
  simp only []
  rw [if_neg (by omega)]

example : readAll (some [104, 105]) (some fun _ => 7) 10 = some (some [104, 105, 0], 2, 0) := by decide +kernel
example : readAll (some [104, 105]) (some fun _ => 7) 1 = some (none, 2, -5) := by decide +kernel

/-! ### Concrete cases -/

-- C47: two short writes and an interruption
example : (write (fun i => if i = 0 then 2 else if i = 1 then 1 else -1) ⟨[9], 0⟩ [1, 2, 3, 4, 5] 5 |>.map fun r => (r.1.data, r.1.calls, r.2)) =
    some ([9, 1, 2, 3], 3, [1, 2, 3, 4, 5], 3) := by decide +kernel
example : (read (fun _ => 2) ⟨[1, 2, 3], 0⟩ [9, 9, 9, 9, 9] 5).map (fun r => (r.2.1, r.2.2)) =
    some ([1, 2, 3, 9, 9], 3) := by decide +kernel
-- C48
example : appendSlash [97, 98, 0, 7, 7] 5 = some ([97, 98, 47, 0, 7], 0) := by decide

end Verif.FileUtil
