import Verif.FileUtil.Rw
/-! # Lemmas about paths and lines -/
namespace Verif.FileUtil
open Spec

/-! ### append_slash -/

theorem strnlen_eq {path after : List Byte} (h0 : (0 : Byte) ∉ path) : ∀ {size : Nat}, path.length < size →
    strnlen (path ++ 0 :: after) size = some path.length := by
  induction path with
  | nil => intro size h; cases size with
    | zero => omega
    | succ n => simp [strnlen]
  | cons c path ih =>
    intro size h
    simp only [List.mem_cons, not_or, List.length_cons] at h0 h
    cases size with
    | zero => omega
    | succ n =>
      rw [List.cons_append, strnlen, if_neg (fun e => h0.1 e.symm), ih h0.2 (by omega)]
      rfl

theorem revInd {α : Type} {P : List α → Prop} (nil : P []) (snoc : ∀ l a, P l → P (l ++ [a])) (l : List α) : P l := by
  have : ∀ r : List α, P r.reverse := by
    intro r
    induction r with
    | nil => simpa using nil
    | cons a r ih => rw [List.reverse_cons]; exact snoc _ _ ih
  have h := this l.reverse
  rwa [List.reverse_reverse] at h

theorem trimLen_eq (path : List Byte) : ∀ after, trimLen (path ++ after) path.length = some (trimmed path).length := by
  induction path using revInd with
  | nil => intro after; rfl
  | snoc path c ih =>
    intro after
    rw [List.append_assoc, List.length_append]
    show trimLen (path ++ ([c] ++ after)) (path.length + 1) = _
    unfold trimLen
    rw [List.getElem?_append_right (by omega)]
    simp only [Nat.sub_self, List.singleton_append, List.getElem?_cons_zero, Option.bind_eq_bind, Option.bind_some]
    unfold trimmed
    rw [List.reverse_append]
    by_cases h : c = 32
    · subst h
      have := ih (32 :: after)
      simp only [if_true]
      rw [this]
      simp [trimmed]
    · simp [h]

theorem trimmed_prefix (path : List Byte) : ∃ sp, path = trimmed path ++ sp ∧ ∀ c ∈ sp, c = 32 := by
  refine ⟨(path.reverse.takeWhile (· == 32)).reverse, ?_, ?_⟩
  · unfold trimmed
    rw [← List.reverse_append, List.takeWhile_append_dropWhile, List.reverse_reverse]
  · intro c hc
    rw [List.mem_reverse] at hc
    have := List.all_takeWhile (l := path.reverse) (p := (· == 32))
    rw [List.all_eq_true] at this
    simpa using this c hc

theorem strstr_bs (t : List Byte) : (strstr [92] t).isSome = true ↔ (92 : Byte) ∈ t := by
  induction t with
  | nil => simp [strstr]
  | cons c t ih =>
    unfold strstr
    by_cases h : c = 92
    · subst h; simp
    · have : [92].isPrefixOf (c :: t) = false := by simp [List.isPrefixOf, Ne.symm h]
      rw [this]
      simp only [Bool.false_eq_true, if_false, Option.isSome_map, ih, List.mem_cons]
      constructor
      · exact fun hh => .inr hh
      · rintro (e | e)
        · exact absurd e.symm h
        · exact e

/-- What `file_util_append_slash_on_path_if_needed` does to a path stored in an object of at least `size`
bytes. -/
theorem appendSlash_eq {path after : List Byte} {size : Nat} (h0 : (0 : Byte) ∉ path) (hs : path.length < size)
    (hm : size ≤ (path ++ 0 :: after).length) :
    appendSlash (path ++ 0 :: after) size = some
      (if path = [] ∨ size < 3 then (path ++ 0 :: after, -1)
       else if trimmed path = [] then (path ++ 0 :: after, -2)
       else if (trimmed path).getLast? = some (separator path) then (path ++ 0 :: after, 0)
       else if (trimmed path).length + 1 < size then
         (trimmed path ++ separator path :: 0 :: (path ++ 0 :: after).drop ((trimmed path).length + 2), 0)
       else ((trimmed path).dropLast ++ separator path :: 0 :: (path ++ 0 :: after).drop ((trimmed path).length + 1), 0)) := by
  obtain ⟨sp, hsp, _⟩ := trimmed_prefix path
  have hle : (trimmed path).length ≤ path.length := by
    have := congrArg List.length hsp
    rw [List.length_append] at this; omega
  generalize hM : path ++ 0 :: after = M at hm ⊢
  have hMl : M.length = path.length + 1 + after.length := by rw [← hM]; simp; omega
  have hM2 : M = trimmed path ++ (sp ++ 0 :: after) := by rw [← List.append_assoc, ← hsp, hM]
  unfold appendSlash
  have e0 : M[0]? = some (path.head?.getD 0) := by rw [← hM]; cases path <;> simp
  rw [e0]
  simp only [Option.bind_eq_bind, Option.bind_some, Option.pure_def]
  have hc0 : path.head?.getD 0 = 0 ↔ path = [] := by
    cases path with
    | nil => simp
    | cons c l =>
      simp only [List.mem_cons, not_or] at h0
      simp [Ne.symm h0.1]
  by_cases hp : path = [] ∨ size < 3
  · rw [if_pos hp, if_pos (by rw [hc0]; exact hp)]
  · rw [if_neg hp, if_neg (by rw [hc0]; exact hp)]
    rw [← hM, strnlen_eq h0 hs]
    simp only [Option.bind_some]
    rw [trimLen_eq]
    simp only [Option.bind_some]
    by_cases ht : trimmed path = []
    · rw [if_pos ht, if_pos (by rw [ht]; simp)]
    · have htl : ¬ (trimmed path).length < 1 := by
        intro h; exact ht (List.length_eq_zero_iff.mp (by omega))
      rw [if_neg ht, if_neg htl, Mem.cstr_zero h0, hM]
      simp only [Option.bind_some]
      have hsep : (if (strstr [92] path).isSome = true then (92 : Byte) else 47) = separator path := by
        unfold separator
        by_cases h : (92 : Byte) ∈ path
        · rw [if_pos h, if_pos ((strstr_bs path).mpr h)]
        · rw [if_neg h, if_neg (fun hh => h ((strstr_bs path).mp hh))]
      rw [hsep]
      have hlast : M[(trimmed path).length - 1]? = (trimmed path).getLast? := by
        rw [hM2, List.getElem?_append_left (by omega), List.getLast?_eq_getElem?]
      rw [hlast]
      obtain ⟨x, hx⟩ : ∃ x, (trimmed path).getLast? = some x := by
        cases h : (trimmed path).getLast? with
        | none => exact absurd (List.getLast?_eq_none_iff.mp h) ht
        | some x => exact ⟨x, rfl⟩
      rw [hx]
      simp only [Option.bind_some, Option.some.injEq]
      by_cases hl : x = separator path
      · rw [if_pos hl, if_pos hl]
      · rw [if_neg hl, if_neg hl]
        by_cases hr : (trimmed path).length + 1 < size
        · rw [if_pos hr, if_pos hr, Mem.store_eq_some (by simp only [List.length_singleton]; omega)]
          simp only [Option.bind_some, List.length_singleton]
          rw [Mem.store_eq_some (by simp only [List.length_singleton, List.length_append, List.length_take, List.length_drop]; omega)]
          simp only [Option.bind_some, List.length_singleton]
          have htk : M.take (trimmed path).length = trimmed path := by rw [hM2, List.take_left]
          rw [htk]
          have e1 : (trimmed path ++ [separator path]).length = (trimmed path).length + 1 := by simp
          rw [← e1, List.take_left, List.drop_append, e1, List.drop_eq_nil_of_le (by omega)]
          simp only [List.drop_drop, List.nil_append, List.append_assoc, List.singleton_append]
          rw [show (trimmed path).length + 1 + ((trimmed path).length + 1 + 1 - ((trimmed path).length + 1)) =
            (trimmed path).length + 2 by omega]
          rfl
        · rw [if_neg hr, if_neg hr, Mem.store_eq_some (by simp only [List.length_singleton]; omega)]
          simp only [Option.bind_some, List.length_singleton]
          rw [Mem.store_eq_some (by simp only [List.length_singleton, List.length_append, List.length_take, List.length_drop]; omega)]
          simp only [Option.bind_some, List.length_singleton]
          have htk : M.take ((trimmed path).length - 1) = (trimmed path).dropLast := by
            rw [hM2, List.take_append_of_le_length (by omega), List.dropLast_eq_take]
          rw [htk]
          have e1 : ((trimmed path).dropLast ++ [separator path]).length = (trimmed path).length - 1 + 1 := by simp
          rw [← e1, List.take_left, List.drop_append, e1, List.drop_eq_nil_of_le (by omega)]
          simp only [List.drop_drop, List.nil_append, List.append_assoc, List.singleton_append]
          rw [show (trimmed path).length - 1 + 1 + ((trimmed path).length - 1 + 1 + 1 - ((trimmed path).length - 1 + 1)) =
            (trimmed path).length + 1 by omega]
          rfl

/-! ### mkdirs -/

/-- the folders of `pre ++ rest` that end in `rest` -/
def foldersFrom (pre : List Byte) : List Byte → List (List Byte)
  | [] => []
  | c :: rest => if c ≠ 92 ∧ c ≠ 47 then foldersFrom (pre ++ [c]) rest else (pre ++ [c]) :: foldersFrom (pre ++ [c]) rest

theorem foldersFrom_eq (rest : List Byte) : ∀ pre, foldersFrom pre rest =
    ((List.range rest.length).filter fun i => rest.getD i 0 == 92 || rest.getD i 0 == 47).map fun i =>
      pre ++ rest.take (i + 1) := by
  induction rest with
  | nil => intro pre; rfl
  | cons c rest ih =>
    intro pre
    rw [List.length_cons, List.range_succ_eq_map, List.filter_cons, List.filter_map, foldersFrom, ih]
    have hm : ∀ l : List Nat, (l.map Nat.succ).map (fun i => pre ++ (c :: rest).take (i + 1)) =
        l.map fun i => pre ++ [c] ++ rest.take (i + 1) := by
      intro l; rw [List.map_map]; apply List.map_congr_left; intro i _; simp
    have hf : ((fun i => (c :: rest).getD i 0 == 92 || (c :: rest).getD i 0 == 47) ∘ Nat.succ) =
        fun i => rest.getD i 0 == 92 || rest.getD i 0 == 47 := by
      funext i; simp
    rw [hf]
    by_cases h : c ≠ 92 ∧ c ≠ 47
    · have hd : ((c :: rest).getD 0 0 == 92 || (c :: rest).getD 0 0 == 47) = false := by simp [h.1, h.2]
      rw [if_pos h, hd]
      simp only [Bool.false_eq_true, if_false]
      rw [hm]
    · have hd : ((c :: rest).getD 0 0 == 92 || (c :: rest).getD 0 0 == 47) = true := by
        simp only [List.getD_cons_zero, Bool.or_eq_true, beq_iff_eq]
        by_cases h1 : c = 92
        · exact .inl h1
        · right
          by_cases h2 : c = 47
          · exact h2
          · exact absurd ⟨h1, h2⟩ h
      rw [if_neg h, hd]
      simp only [if_true, List.map_cons]
      rw [hm]
      simp

theorem folders_eq (path : List Byte) : folders path = foldersFrom [] path := by
  rw [foldersFrom_eq]; rfl

theorem tmp_store (pre : List Byte) (c : Byte) (h : pre.length < 256) :
    Mem.store (pre ++ List.replicate (256 - pre.length) 0) pre.length [c] =
      some (pre ++ [c] ++ List.replicate (256 - (pre ++ [c]).length) 0) := by
  rw [Mem.store_eq_some (by simp; omega), List.take_left]
  simp only [List.length_singleton, List.length_append]
  rw [List.drop_append, List.drop_eq_nil_of_le (by omega)]
  simp only [List.drop_replicate, List.nil_append]
  congr 3
  omega

theorem mkdirsLoop_eq {σ : Type} (fs : Fs σ) (rest : List Byte) : ∀ (pre : List Byte) (s : σ),
    (0 : Byte) ∉ pre → (0 : Byte) ∉ rest → pre.length + rest.length < 256 →
    mkdirsLoop fs s (pre ++ List.replicate (256 - pre.length) 0) pre.length rest =
      some (makeAll fs s (foldersFrom pre rest)) := by
  induction rest with
  | nil => intro pre s _ _ _; rfl
  | cons c rest ih =>
    intro pre s hp hr hl
    simp only [List.mem_cons, not_or, List.length_cons] at hr hl
    have hp' : (0 : Byte) ∉ pre ++ [c] := by simp [hp, hr.1]
    have hstep := fun s => ih (pre ++ [c]) s hp' hr.2 (by simp; omega)
    unfold mkdirsLoop foldersFrom
    rw [tmp_store pre c (by omega)]
    simp only [Option.bind_eq_bind, Option.bind_some, Option.pure_def]
    rw [show pre.length + 1 = (pre ++ [c]).length by simp]
    by_cases h : c ≠ 92 ∧ c ≠ 47
    · rw [if_pos h, if_pos h]; exact hstep s
    · rw [if_neg h, if_neg h]
      obtain ⟨k, hk⟩ : ∃ k, 256 - (pre ++ [c]).length = k + 1 := ⟨255 - (pre ++ [c]).length, by simp; omega⟩
      have hcs : Mem.cstr (pre ++ [c] ++ List.replicate (256 - (pre ++ [c]).length) 0) 0 = some (pre ++ [c]) := by
        rw [hk, List.replicate_succ]
        exact Mem.cstr_zero hp'
      rw [hcs]
      simp only [Option.bind_some, makeAll]
      by_cases ha : fs.access s (pre ++ [c]) = true
      · rw [if_pos ha, if_pos ha]; exact hstep s
      · rw [if_neg ha, if_neg ha]
        by_cases hd : (fs.mkdir s (pre ++ [c])).2 ≠ 0
        · rw [if_pos hd, if_pos hd]
        · rw [if_neg hd, if_neg hd]; exact hstep _

theorem mkdirsLoop_plain {σ : Type} (fs : Fs σ) (s : σ) (w rest : List Byte) : ∀ (pre : List Byte),
    (∀ c ∈ w, c ≠ 92 ∧ c ≠ 47) → pre.length + w.length ≤ 256 →
    mkdirsLoop fs s (pre ++ List.replicate (256 - pre.length) 0) pre.length (w ++ rest) =
      mkdirsLoop fs s (pre ++ w ++ List.replicate (256 - (pre ++ w).length) 0) (pre ++ w).length rest := by
  induction w with
  | nil => intro pre _ _; simp
  | cons c w ih =>
    intro pre hw hl
    simp only [List.length_cons] at hl
    have h := hw c (by simp)
    rw [List.cons_append, mkdirsLoop, tmp_store pre c (by omega)]
    simp only [Option.bind_eq_bind, Option.bind_some]
    rw [if_pos h, show pre.length + 1 = (pre ++ [c]).length by simp, ih (pre ++ [c]) (fun d hd => hw d (by simp [hd])) (by simp; omega)]
    simp

/-! ### read_txt -/

theorem length_dropWhile_le {α : Type} (p : α → Bool) (l : List α) : (l.dropWhile p).length ≤ l.length := by
  have h := congrArg List.length (List.takeWhile_append_dropWhile (p := p) (l := l))
  rw [List.length_append] at h
  omega

theorem isSpace_eq (c : Byte) : isSpace c = [9, 10, 11, 12, 13, 32].contains c := by
  have h : ∀ i : Fin 256, isSpace (UInt8.ofFin i) = [9, 10, 11, 12, 13, 32].contains (UInt8.ofFin i) := by decide +kernel
  exact h c.toFin

theorem skipBlank_eq (t after : List Byte) : ∀ p, (0 : Byte) ∉ t →
    skipBlank (t ++ 0 :: after) p = some (p + (t.length - (t.dropWhile fun c => [9, 10, 11, 12, 13, 32].contains c).length)) := by
  induction t with
  | nil => intro p _; simp [skipBlank]
  | cons c t ih =>
    intro p h
    simp only [List.mem_cons, not_or] at h
    rw [List.cons_append, skipBlank, List.dropWhile_cons]
    by_cases hc : [9, 10, 11, 12, 13, 32].contains c = true
    · rw [if_pos ⟨fun e => h.1 e.symm, by rw [isSpace_eq]; exact hc⟩, ih _ h.2, if_pos hc]
      have := length_dropWhile_le (fun c => [9, 10, 11, 12, 13, 32].contains c) t
      simp only [List.length_cons, Option.some.injEq]
      omega
    · rw [if_neg (fun hh => hc (by rw [← isSpace_eq]; exact hh.2)), if_neg hc]
      simp

/-- one piece of the file: characters, then possibly a line feed -/
theorem chomp_cases (body : List Byte) (nl : Bool) (h10 : (10 : Byte) ∉ body) :
    chomp (body ++ if nl then [10] else []) = if body.getLast? = some 13 then body.dropLast else body := by
  unfold chomp
  cases nl with
  | true => simp
  | false =>
    simp only [Bool.false_eq_true, if_false, List.append_nil]
    have : body.getLast? ≠ some 10 := fun h => h10 (List.mem_of_getLast? h)
    rw [if_neg this]

theorem lineText_eq {body after : List Byte} {nl : Bool} (h0 : (0 : Byte) ∉ body) (h10 : (10 : Byte) ∉ body) :
    ∃ buf', lineText ((body ++ if nl then [10] else []) ++ 0 :: after) =
        some (buf', (content (body ++ if nl then [10] else [])).map fun t =>
          (chomp (body ++ if nl then [10] else [])).length - t.length) ∧
      buf'.length = ((body ++ if nl then [10] else []) ++ 0 :: after).length ∧
      ∀ t, content (body ++ if nl then [10] else []) = some t →
        buf'.cstr ((chomp (body ++ if nl then [10] else [])).length - t.length) = some t := by
  have hl0 : (0 : Byte) ∉ body ++ if nl then [10] else [] := by cases nl <;> simp [h0]
  have hidx : (body ++ if nl then [10] else []).idxOf 10 = body.length := by
    cases nl with
    | true => rw [List.idxOf_append, if_neg h10]; simp
    | false =>
      simp only [Bool.false_eq_true, if_false, List.append_nil]
      exact List.idxOf_eq_length h10
  obtain ⟨rest, hrest⟩ : ∃ rest, (body ++ if nl then [10] else []) ++ 0 :: after = body ++ rest ∧ rest ≠ [] := by
    cases nl with
    | true => exact ⟨10 :: 0 :: after, by simp⟩
    | false => exact ⟨0 :: after, by simp⟩
  have hch : chomp (body ++ if nl then [10] else []) = if body.getLast? = some 13 then body.dropLast else body :=
    chomp_cases body nl h10
  -- what is left of the body, and the rest of the buffer
  obtain ⟨tail, htail, hbk⟩ : ∃ tail, body = chomp (body ++ if nl then [10] else []) ++ tail ∧
      backCr (body ++ rest) body.length = some (chomp (body ++ if nl then [10] else [])).length := by
    rw [hch]
    unfold backCr
    by_cases hb : body = []
    · subst hb; exact ⟨[], by simp⟩
    · have hpos : body.length > 0 := List.length_pos_iff.mpr hb
      rw [if_pos hpos, List.getElem?_append_left (by omega), ← List.getLast?_eq_getElem?]
      obtain ⟨x, hx⟩ : ∃ x, body.getLast? = some x := by
        cases h : body.getLast? with
        | none => exact absurd (List.getLast?_eq_none_iff.mp h) hb
        | some x => exact ⟨x, rfl⟩
      rw [hx]
      simp only [Option.map_some, Option.some.injEq]
      by_cases hx13 : x = 13
      · rw [if_pos hx13, if_pos hx13]
        refine ⟨[x], ?_, by simp⟩
        have := List.dropLast_concat_getLast hb
        rw [List.getLast?_eq_some_getLast hb] at hx
        cases hx
        exact this.symm
      · rw [if_neg hx13, if_neg hx13]
        exact ⟨[], by simp⟩
  have hc0 : (0 : Byte) ∉ chomp (body ++ if nl then [10] else []) := by
    intro h; apply h0; rw [htail]; simp [h]
  generalize hC : chomp (body ++ if nl then [10] else []) = C at *
  have hcont : content (body ++ if nl then [10] else []) =
      if (C.dropWhile fun c => [9, 10, 11, 12, 13, 32].contains c) = [] then none
      else some (C.dropWhile fun c => [9, 10, 11, 12, 13, 32].contains c) := by
    unfold content; rw [hC]
  have hblen : body.length = C.length + tail.length := by
    have := congrArg List.length htail; rw [List.length_append] at this; exact this
  have hstore : Mem.store (body ++ rest) C.length [0] = some (C ++ 0 :: (body ++ rest).drop (C.length + 1)) := by
    have hrl : 0 < rest.length := List.length_pos_iff.mpr hrest.2
    rw [Mem.store_eq_some (by simp; omega)]
    have : (body ++ rest).take C.length = C := by
      rw [htail, List.append_assoc, List.take_left]
    rw [this]; simp
  have hdl := length_dropWhile_le (fun c => [9, 10, 11, 12, 13, 32].contains c) C
  have hsplit : C = C.take (C.length - (C.dropWhile fun c => [9, 10, 11, 12, 13, 32].contains c).length) ++
      C.dropWhile fun c => [9, 10, 11, 12, 13, 32].contains c := by
    have h1 := List.takeWhile_append_dropWhile (p := fun c => [9, 10, 11, 12, 13, 32].contains c) (l := C)
    have h2 := congrArg List.length h1
    rw [List.length_append] at h2
    conv => lhs; rw [← h1]
    congr 1
    rw [show C.length - (C.dropWhile fun c => [9, 10, 11, 12, 13, 32].contains c).length =
      (C.takeWhile fun c => [9, 10, 11, 12, 13, 32].contains c).length by omega]
    conv => rhs; arg 2; rw [← h1]
    rw [List.take_left]
  generalize hD : (C.dropWhile fun c => [9, 10, 11, 12, 13, 32].contains c) = D at *
  have hD0 : (0 : Byte) ∉ D := by intro h; apply hc0; rw [hsplit]; simp [h]
  have hdrop : (C ++ 0 :: (body ++ rest).drop (C.length + 1)).drop (C.length - D.length) =
      D ++ 0 :: (body ++ rest).drop (C.length + 1) := by
    rw [List.drop_append_of_le_length (by omega)]
    congr 1
    conv => lhs; arg 2; rw [hsplit]
    have : (C.take (C.length - D.length)).length = C.length - D.length := by rw [List.length_take]; omega
    rw [List.drop_append_of_le_length (by omega), List.drop_eq_nil_of_le (by omega), List.nil_append]
  refine ⟨C ++ 0 :: (body ++ rest).drop (C.length + 1), ?_, ?_, ?_⟩
  · unfold lineText
    rw [Mem.cstr_zero hl0]
    simp only [Option.bind_eq_bind, Option.bind_some, Option.pure_def]
    rw [hidx, hrest.1, hbk]
    simp only [Option.bind_some]
    rw [hstore]
    simp only [Option.bind_some]
    rw [skipBlank_eq C _ 0 hc0, hD]
    simp only [Option.bind_some, Nat.zero_add]
    have hget : (C ++ 0 :: (body ++ rest).drop (C.length + 1))[C.length - D.length]? =
        (D ++ 0 :: (body ++ rest).drop (C.length + 1))[0]? := by
      rw [← hdrop, List.getElem?_drop]; rfl
    rw [hget, hcont]
    cases D with
    | nil => simp
    | cons d D =>
      simp only [List.mem_cons, not_or] at hD0
      simp [Ne.symm hD0.1]
  · rw [hrest.1]
    have hrl : 0 < rest.length := List.length_pos_iff.mpr hrest.2
    simp; omega
  · intro t ht
    rw [hcont] at ht
    split at ht
    · simp at ht
    · simp only [Option.some.injEq] at ht
      subst ht
      exact Mem.cstr_eq hdrop hD0

end Verif.FileUtil
