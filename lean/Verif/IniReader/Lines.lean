import Verif.IniReader.Lemmas
/-! # How concrete lines are classified -/
namespace Verif.IniReader
open Spec

/-- no `;` right after a blank -/
def NoComment (s : List Byte) : Prop := ∀ a x b, s = a ++ x :: 59 :: b → isSpace x = false

/-- neither begins nor ends with a blank -/
def Trimmed (s : List Byte) : Prop := (∀ c, s.head? = some c → isSpace c = false) ∧
  (∀ c, s.getLast? = some c → isSpace c = false)

theorem NoComment.tail {c : Byte} {s : List Byte} (h : NoComment (c :: s)) : NoComment s :=
  fun a x b e => h (c :: a) x b (by rw [e]; rfl)

/-- is the character before position `|s|` a blank? -/
def lastSp (w : Bool) (s : List Byte) : Bool := match s.getLast? with
  | none => w
  | some c => isSpace c

theorem stopR_append (chars : List Byte) (s t : List Byte) : ∀ w : Bool, (∀ c ∈ s, c ∉ chars) → NoComment s →
    (w = true → s.head? ≠ some 59) →
    stopR chars w (s ++ t) = s.length + stopR chars (lastSp w s) t := by
  induction s with
  | nil => intro w _ _ _; simp [lastSp]
  | cons c s ih =>
    intro w h1 h2 h3
    rw [List.cons_append, stopR]
    have hc : chars.contains c = false := by simpa using h1 c (by simp)
    have hw : (w && c == 59) = false := by
      cases w
      · rfl
      · have : c ≠ 59 := fun e => h3 rfl (by rw [e]; rfl)
        simpa using this
    rw [hc, hw]
    simp only [Bool.or_self, Bool.false_eq_true, if_false]
    rw [ih (isSpace c) (fun d hd => h1 d (by simp [hd])) h2.tail]
    · have hls : lastSp (isSpace c) s = lastSp w (c :: s) := by
        unfold lastSp
        cases s with
        | nil => rfl
        | cons d s => rw [List.getLast?_cons_cons, List.getLast?_cons]
      rw [hls, List.length_cons]; omega
    · intro hsp e
      cases s with
      | nil => simp at e
      | cons d s =>
        simp at e
        subst e
        rw [h2 [] c s rfl] at hsp
        simp at hsp

theorem rtrim_of_last {s : List Byte} (h : ∀ c, s.getLast? = some c → isSpace c = false) : rtrim s = s := by
  rcases List.eq_nil_or_concat s with rfl | ⟨l, c, e⟩
  · rfl
  · rw [List.concat_eq_append] at e
    subst e
    rw [rtrim_snoc, h c (by simp)]
    simp

theorem rtrim_blank {s : List Byte} {t : List Byte} (h : ∀ c ∈ t, isSpace c = true) : rtrim (s ++ t) = rtrim s := by
  unfold rtrim
  rw [List.reverse_append, List.dropWhile_append_of_pos]
  intro c hc
  exact h c (by simpa using hc)

theorem ltrim_of_head {s : List Byte} (h : ∀ c, s.head? = some c → isSpace c = false) : ltrim s = s := by
  cases s with
  | nil => rfl
  | cons c s =>
    have := h c rfl
    simp [ltrim, this]

theorem lines_nil : lines [] = [] := by rw [lines]

/-- A line of at most 198 characters and its line feed is delivered whole. -/
theorem lines_cons {w rest : List Byte} (h : (10 : Byte) ∉ w) (hl : w.length ≤ 198) :
    lines (w ++ 10 :: rest) = (w ++ [10]) :: lines rest := by
  have e : lineLen (w ++ 10 :: rest) = w.length + 1 := by
    unfold lineLen
    rw [List.idxOf_append]
    simp only [h, if_false, List.idxOf_cons_self, List.length_append, List.length_cons]
    omega
  have hne : w ++ 10 :: rest ≠ [] := by simp
  obtain ⟨c, u, hu⟩ := List.exists_cons_of_ne_nil hne
  rw [hu, lines, ← hu, e]
  have e1 : (w ++ 10 :: rest).take (w.length + 1) = w ++ [10] := by
    rw [show w ++ 10 :: rest = (w ++ [10]) ++ rest by simp]
    rw [List.take_append_of_le_length (by simp), List.take_of_length_le (by simp)]
  have e2 : (w ++ 10 :: rest).drop (w.length + 1) = rest := by
    rw [show w ++ 10 :: rest = (w ++ [10]) ++ rest by simp]
    rw [List.drop_left' (by simp)]
  rw [e1, e2]

/-- The last line may lack its line feed. -/
theorem lines_last {w : List Byte} (h : (10 : Byte) ∉ w) (hl : w.length ≤ 199) (hne : w ≠ []) :
    lines w = [w] := by
  have e : lineLen w = w.length := by
    unfold lineLen
    have : w.idxOf 10 = w.length := List.idxOf_eq_length h
    omega
  obtain ⟨c, u, hu⟩ := List.exists_cons_of_ne_nil hne
  rw [hu, lines, ← hu, e, List.take_of_length_le (Nat.le_refl _), List.drop_eq_nil_of_le (Nat.le_refl _), lines_nil]

/-- A blank line. -/
theorem classify_blank (first open_ : Bool) {line : List Byte} (h : ∀ c ∈ line, isSpace c = true) :
    classify first open_ line = .ignored := by
  have h1 : (if first = true then skipBom line else line) = line := by
    unfold skipBom
    have : ¬ line.take 3 = [0xEF, 0xBB, 0xBF] := by
      intro e
      have : (0xEF : Byte) ∈ line := List.mem_of_mem_take (i := 3) (by rw [e]; simp)
      have := h _ this
      revert this; decide
    rw [if_neg this]; simp
  unfold classify
  rw [h1]
  have : rtrim line = [] := by
    have := rtrim_blank (s := []) h
    simpa [rtrim] using this
  simp [this, ltrim]

/-- `classify` of a line that does not begin with a blank or a byte order mark, with blanks `ws` (such as
`\r\n`) behind it. -/
theorem classify_flush (first open_ : Bool) {t ws : List Byte} {c : Byte} (hc : t.head? = some c)
    (hs : isSpace c = false) (hb : first = true → c ≠ 0xEF) (hl : ∀ d, t.getLast? = some d → isSpace d = false)
    (hws : ∀ d ∈ ws, isSpace d = true) :
    classify first open_ (t ++ ws) =
      if c = 59 ∨ c = 35 then .ignored else classifyEntry t := by
  obtain ⟨u, rfl⟩ : ∃ u, t = c :: u := by
    cases t with
    | nil => simp at hc
    | cons d u => simp at hc; exact ⟨u, by rw [hc]⟩
  have h1 : (if first = true then skipBom (c :: u ++ ws) else c :: u ++ ws) = c :: u ++ ws := by
    unfold skipBom
    by_cases hf : first = true
    · have : ¬ (c :: u ++ ws).take 3 = [0xEF, 0xBB, 0xBF] := by
        intro e
        rw [List.cons_append, List.take_succ_cons, List.cons.injEq] at e
        exact hb hf e.1
      rw [if_neg this]; simp
    · rw [if_neg hf]
  unfold classify
  rw [h1, rtrim_blank hws, rtrim_of_last hl, ltrim_of_head (by intro d hd; simp at hd; rw [← hd]; exact hs)]
  have h2 : ((c :: u ++ ws).head?.any isSpace) = false := by simp [hs]
  simp only [h2, List.head?_cons, Option.some.injEq, reduceCtorEq, false_or]
  by_cases h3 : c = 59 ∨ c = 35
  · simp [h3]
  · simp [h3]

/-- A comment line. -/
theorem classify_comment (first open_ : Bool) {t : List Byte} {c : Byte} (h : c = 59 ∨ c = 35) (indent : List Byte)
    (hi : ∀ d ∈ indent, isSpace d = true) : classify first open_ (indent ++ c :: t) = .ignored := by
  have hb : (if first = true then skipBom (indent ++ c :: t) else indent ++ c :: t) = indent ++ c :: t := by
    unfold skipBom
    have : ¬ (indent ++ c :: t).take 3 = [0xEF, 0xBB, 0xBF] := by
      intro e
      have hh : (indent ++ c :: t).head? = some 0xEF := by
        have := congrArg List.head? e
        rw [List.head?_take] at this
        simpa using this
      cases indent with
      | nil => simp at hh; rw [hh] at h; revert h; decide
      | cons d i =>
        simp at hh
        have := hi d (by simp)
        rw [hh] at this; revert this; decide
    rw [if_neg this]; simp
  have hcs : isSpace c = false := by rcases h with rfl | rfl <;> decide
  unfold classify
  rw [hb]
  have : ∃ r, ltrim (rtrim (indent ++ c :: t)) = c :: r := by
    obtain ⟨x, e⟩ := rtrim_prefix (c :: t)
    have hne : rtrim (c :: t) ≠ [] := by
      intro h0
      unfold rtrim at h0
      rw [List.reverse_eq_nil_iff] at h0
      have h1 := List.takeWhile_append_dropWhile (p := isSpace) (l := (c :: t).reverse)
      rw [h0, List.append_nil] at h1
      have h2 := List.all_takeWhile (p := isSpace) (l := (c :: t).reverse)
      rw [h1, List.all_eq_true] at h2
      have := h2 c (by simp)
      rw [hcs] at this
      simp at this
    have hh : rtrim (indent ++ c :: t) = indent ++ rtrim (c :: t) := by
      unfold rtrim
      rw [List.reverse_append, List.dropWhile_append]
      have : ((c :: t).reverse.dropWhile isSpace).isEmpty = false := by
        rw [Bool.eq_false_iff]
        intro h0
        apply hne
        unfold rtrim
        rw [List.isEmpty_iff.mp h0]; rfl
      rw [this]
      simp
    rw [hh]
    unfold ltrim
    rw [List.dropWhile_append_of_pos hi]
    cases hr : rtrim (c :: t) with
    | nil => exact absurd hr hne
    | cons d r =>
      rw [hr] at e
      simp at e
      rw [← e.1]
      exact ⟨r, by simp [hcs]⟩
  obtain ⟨r, hr⟩ := this
  rw [hr]
  simp only [List.head?_cons, Option.some.injEq, reduceCtorEq, false_or, h, if_true]

/-- `[name]`, followed by blanks. -/
theorem classify_section (first open_ : Bool) {n ws : List Byte} (h93 : (93 : Byte) ∉ n) (hn : NoComment n)
    (hws : ∀ d ∈ ws, isSpace d = true) :
    classify first open_ (91 :: n ++ [93] ++ ws) = .section n := by
  rw [classify_flush first open_ (c := 91) rfl (by decide) (fun _ => by decide) (by
    intro d hd
    rw [List.getLast?_append] at hd
    simp at hd
    rw [← hd]; decide) hws]
  have hstop : stop [93] (n ++ [93]) = n.length := by
    rw [stop_eq, stopR_append _ _ _ _ (by intro c hc; simp; exact fun e => h93 (e ▸ hc)) hn (by simp)]
    simp [stopR]
  unfold classifyEntry
  simp only [List.cons_append, List.head?_cons, if_true, List.drop_succ_cons, List.drop_zero, hstop]
  have e1 : (n ++ [93])[n.length]? = some 93 := by simp
  simp only [e1, if_true]
  simp

/-- `name = value` followed by blanks (the form written by `ini_parser_dump`). -/
theorem classify_pair (first open_ : Bool) {k v ws : List Byte} (hk0 : k ≠ []) (hk : Trimmed k) (hkc : NoComment k)
    (hk61 : (61 : Byte) ∉ k) (hk58 : (58 : Byte) ∉ k)
    (hkh : ∀ c, k.head? = some c → c ≠ 59 ∧ c ≠ 35 ∧ c ≠ 91) (hb : first = true → k.head? ≠ some 0xEF)
    (hv : Trimmed v) (hvc : NoComment v) (hv59 : v.head? ≠ some 59) (hws : ∀ d ∈ ws, isSpace d = true) :
    classify first open_ (k ++ [32, 61, 32] ++ v ++ ws) = .pair k v := by
  obtain ⟨c, k', rfl⟩ := List.exists_cons_of_ne_nil hk0
  obtain ⟨hc1, hc2, hc3⟩ := hkh c rfl
  have hc4 : first = true → c ≠ 0xEF := fun hf e => hb hf (by rw [e]; rfl)
  have hcs := hk.1 c rfl
  -- the trimmed line
  obtain ⟨u, hu, ht⟩ : ∃ u ws', (c :: k') ++ [32, 61, 32] ++ v ++ ws = (c :: k' ++ [32, 61] ++ u) ++ ws' ∧
      (∀ d ∈ ws', isSpace d = true) ∧ (u = [] ∧ v = [] ∨ u = 32 :: v ∧ v ≠ []) := by
    by_cases h : v = []
    · exact ⟨[], 32 :: ws, by simp [h], by
        intro d hd
        rcases List.mem_cons.mp hd with rfl | hd
        · decide
        · exact hws d hd, .inl ⟨rfl, h⟩⟩
    · exact ⟨32 :: v, ws, by simp, hws, .inr ⟨rfl, h⟩⟩
  obtain ⟨e, hws', hcase⟩ := ht
  rw [e, classify_flush first open_ (c := c) (by simp) hcs hc4 (by
    intro d hd
    rcases hcase with ⟨rfl, _⟩ | ⟨rfl, hne⟩
    · rw [List.append_nil, List.getLast?_append] at hd
      simp at hd; rw [← hd]; decide
    · apply hv.2
      rw [List.getLast?_append] at hd
      have : (32 :: v).getLast? = v.getLast? := by
        cases v with
        | nil => exact absurd rfl hne
        | cons a b => rw [List.getLast?_cons_cons]
      rw [this] at hd
      cases hg : v.getLast? with
      | none => exact absurd (List.getLast?_eq_none_iff.mp hg) hne
      | some x => rw [hg] at hd; simpa using hd) hws']
  rw [if_neg (by rintro (h | h); exact hc1 h; exact hc2 h)]
  unfold classifyEntry
  have hne91 : ¬ (c :: k' ++ [32, 61] ++ u).head? = some 91 := by simpa using hc3
  simp only [hne91, if_false]
  have hlast : lastSp false (c :: k') = false := by
    unfold lastSp
    cases hg : (c :: k').getLast? with
    | none => rfl
    | some d => exact hk.2 d hg
  have hstop : stop [61, 58] (c :: k' ++ [32, 61] ++ u) = (c :: k').length + 1 := by
    rw [stop_eq, List.append_assoc, stopR_append _ _ _ _ (by
      intro d hd
      simp only [List.mem_cons, List.not_mem_nil, or_false, not_or]
      exact ⟨fun e => hk61 (e ▸ hd), fun e => hk58 (e ▸ hd)⟩) hkc (by simp), hlast]
    rw [show [32, 61] ++ u = 32 :: 61 :: u from rfl, stopR, stopR]
    simp
  rw [hstop]
  have e1 : (c :: k' ++ [32, 61] ++ u)[(c :: k').length + 1]? = some 61 := by
    rw [List.append_assoc, List.getElem?_append_right (by omega)]
    simp
  simp only [e1, true_or, if_true]
  have e2 : (c :: k' ++ [32, 61] ++ u).take ((c :: k').length + 1) = c :: k' ++ [32] := by
    rw [show c :: k' ++ [32, 61] ++ u = (c :: k' ++ [32]) ++ 61 :: u by simp, List.take_left' (by simp)]
  have e3 : (c :: k' ++ [32, 61] ++ u).drop ((c :: k').length + 1 + 1) = u := by
    rw [List.drop_left' (by simp)]
  rw [e2, e3]
  have e4 : rtrim (c :: k' ++ [32]) = c :: k' := by
    rw [rtrim_blank (by intro d hd; simp at hd; rw [hd]; decide), rtrim_of_last hk.2]
  rw [e4]
  congr 1
  rcases hcase with ⟨rfl, hv0⟩ | ⟨rfl, hne⟩
  · subst hv0
    simp [uncomment, ltrim, rtrim]
  · have hst : stop [] (32 :: v) = (32 :: v).length := by
      rw [stop_eq, stopR]
      simp only [List.contains_nil, Bool.false_and, Bool.or_self, Bool.false_eq_true, if_false]
      have := stopR_append [] v [] (isSpace 32) (by simp) hvc (fun _ => hv59)
      rw [List.append_nil] at this
      rw [this]
      simp [stopR]
    unfold uncomment
    rw [hst, List.take_of_length_le (Nat.le_refl _)]
    have : ltrim (32 :: v) = v := by
      have h32 : isSpace 32 = true := by decide
      have : ltrim (32 :: v) = ltrim v := by simp [ltrim, h32]
      rw [this, ltrim_of_head hv.1]
    rw [this, rtrim_of_last hv.2]

end Verif.IniReader
