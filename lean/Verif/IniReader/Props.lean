import Verif.IniReader.Steps
import Verif.IniReader.Lines
/-! # Properties of `ini_reader_parse_string` (C46) -/
namespace Verif.IniReader
open Spec

theorem readLoop_eq (text after : List Byte) : ∀ (num k : Nat) (d rest : List Byte), num ≤ rest.length →
    k ≤ text.length →
    let u := text.drop k
    let n := min (num - 1) (min (u.idxOf 10 + 1) u.length)
    readLoop (text ++ 0 :: after) num (d ++ rest) d.length { ptr := k, left := text.length - k } =
      some (d ++ (u.take n ++ rest.drop n), d.length + n, { ptr := k + n, left := text.length - (k + n) }) := by
  intro num
  induction num with
  | zero => intro k d rest _ hk; simp [readLoop]
  | succ num ih =>
    intro k d rest hn hk u n
    rw [readLoop]
    by_cases hc : num + 1 > 1 ∧ text.length - k ≠ 0
    · rw [if_pos hc]
      have hlt : k < text.length := by omega
      have hu : u = text[k] :: text.drop (k + 1) := List.drop_eq_getElem_cons hlt
      rw [List.getElem?_append_left hlt, List.getElem?_eq_getElem hlt]
      cases rest with
      | nil => simp at hn
      | cons r rest =>
        simp only [Option.bind_eq_bind, Option.bind_some]
        rw [store_mid _ _ _ _ rfl, Option.bind_some]
        by_cases h10 : text[k] = 10
        · have hn1 : n = 1 := by
            show min (num + 1 - 1) (min (u.idxOf 10 + 1) u.length) = 1
            rw [hu, h10]; simp; omega
          rw [if_pos h10, hn1, hu]
          simp only [Option.pure_def, List.take_succ_cons, List.take_zero, List.drop_succ_cons, List.drop_zero,
            List.cons_append, List.nil_append, Option.some.injEq, Prod.mk.injEq, true_and, Ctx.mk.injEq]
          omega
        · rw [if_neg h10]
          have e1 : d ++ text[k] :: rest = (d ++ [text[k]]) ++ rest := by simp
          have e2 : d.length + 1 = (d ++ [text[k]]).length := by simp
          have e3 : text.length - k - 1 = text.length - (k + 1) := by omega
          rw [e1, e2, e3, ih (k + 1) (d ++ [text[k]]) rest (by simpa using hn) (by omega)]
          have hn1 : n = min (num - 1) (min ((text.drop (k + 1)).idxOf 10 + 1) (text.drop (k + 1)).length) + 1 := by
            show min (num + 1 - 1) (min (u.idxOf 10 + 1) u.length) = _
            rw [hu, List.idxOf_cons, List.length_cons]
            have : (text[k] == 10) = false := by simpa using h10
            rw [this]
            simp only [cond_false]
            omega
          rw [hn1, hu]
          generalize min (num - 1) (min ((text.drop (k + 1)).idxOf 10 + 1) (text.drop (k + 1)).length) = q
          simp only [List.take_succ_cons, List.drop_succ_cons, List.append_assoc, List.cons_append,
            List.nil_append, List.length_append, List.length_cons, List.length_nil, Option.some.injEq,
            Prod.mk.injEq, true_and, Ctx.mk.injEq]
          omega
    · rw [if_neg hc]
      have : n = 0 := by
        show min (num + 1 - 1) (min (u.idxOf 10 + 1) u.length) = 0
        have : u.length = text.length - k := by simp [u]
        omega
      rw [this]; simp

theorem streamLoop_rep {σ : Type} (h : Handler σ) (text after : List Byte) (h0 : (0 : Byte) ∉ text) :
    ∀ (fuel k : Nat) (st : St σ) (sp : Spec.St σ), k ≤ text.length → text.length - k < fuel → Rep st sp →
      ∃ st', streamLoop h (text ++ 0 :: after) fuel { ptr := k, left := text.length - k } st = some st' ∧
        Rep st' ((lines (text.drop k)).foldl (step h) sp) := by
  intro fuel
  induction fuel with
  | zero => intro k st sp _ hf; omega
  | succ fuel ih =>
    intro k st sp hk hf r
    rw [streamLoop]
    unfold readString
    by_cases hz : text.length - k = 0
    · simp only [hz, true_or, if_true, Option.bind_eq_bind, Option.bind_some]
      have : text.drop k = [] := List.drop_eq_nil_of_le (by omega)
      rw [this]
      exact ⟨st, rfl, by rw [lines]; exact r⟩
    · have hz' : ¬ (text.length - k = 0 ∨ 200 < 2) := by omega
      simp only [hz', if_false, Option.bind_eq_bind]
      have e := readLoop_eq text after 200 k [] st.line (by rw [r.line]; exact Nat.le_refl _) hk
      simp only [List.nil_append, List.length_nil, Nat.zero_add] at e
      rw [e]
      simp only [Option.bind_some]
      obtain ⟨n, hn⟩ : ∃ n, n = lineLen (text.drop k) := ⟨_, rfl⟩
      have hn' : min (200 - 1) (min ((text.drop k).idxOf 10 + 1) (text.drop k).length) = n := by
        rw [hn]; rfl
      rw [hn']
      have hul : (text.drop k).length = text.length - k := by simp
      have hn0 : 0 < n := by rw [hn]; unfold lineLen; omega
      have hn1 : n ≤ 199 := by rw [hn]; unfold lineLen; omega
      have hn2 : n ≤ text.length - k := by rw [hn]; unfold lineLen; omega
      have hln := r.line
      have hrest : st.line.drop n = st.line[n]'(by omega) :: st.line.drop (n + 1) :=
        List.drop_eq_getElem_cons (by omega)
      have htl : ((text.drop k).take n).length = n := by simp; omega
      rw [hrest, store_mid _ _ _ _ htl.symm]
      simp only [Option.pure_def, Option.bind_some]
      have hl2 : ((text.drop k).take n ++ 0 :: st.line.drop (n + 1)).length = 200 := by
        rw [List.length_append, htl, List.length_cons, List.length_drop]; omega
      obtain ⟨st', es, rs⟩ := handleLine_rep (h := h)
        (st := { st with line := (text.drop k).take n ++ 0 :: st.line.drop (n + 1) }) (sp := sp)
        ⟨r.sec, r.prev, hl2, r.lineno, r.error, r.user, r.first⟩
        (l := (text.drop k).take n) (after := st.line.drop (n + 1)) rfl (no0_take (no0_drop h0 _) _)
      rw [es, Option.bind_some]
      obtain ⟨st2, e2, r2⟩ := ih (k + n) st' _ (by omega) (by omega) rs
      refine ⟨st2, e2, ?_⟩
      have hcons : lines (text.drop k) = (text.drop k).take n :: lines (text.drop (k + n)) := by
        rw [hn]
        cases hu : text.drop k with
        | nil => rw [hu] at hul; simp at hul; omega
        | cons c u =>
          rw [lines, ← hu, List.drop_drop]
      rw [hcons, List.foldl_cons]
      exact r2

/-- **C46.**  For every text, every handler and every (uninitialised) content of the line buffer,
`ini_reader_parse_string` never leaves its buffers, and what the handler is told and the value returned
are exactly those of the specification: the lines in order, each classified by the INI rules, the first
line in error (0 if none). -/
theorem parseString_spec {σ : Type} (h : Handler σ) (text after garbage : List Byte) (user : σ)
    (h0 : (0 : Byte) ∉ text) (hg : garbage.length = 200) :
    parseString h (text ++ 0 :: after) garbage user = some (run h text user) := by
  unfold parseString Mem.strlen
  rw [Mem.cstr_zero h0]
  simp only [Option.map_some, Option.bind_eq_bind, Option.bind_some]
  obtain ⟨st', e, r⟩ := streamLoop_rep h text after h0 (text.length + 1) 0
    { line := garbage, sec := List.replicate 50 0, prev := List.replicate 50 0, lineno := 0, error := 0,
      user := user } { sec := [], prev := [], lineno := 0, error := 0, user := user } (by omega) (by omega)
    ⟨⟨⟨List.replicate 49 0, rfl⟩, by simp, by simp⟩, ⟨⟨List.replicate 49 0, rfl⟩, by simp, by simp⟩, hg, rfl,
      rfl, rfl, fun _ => rfl⟩
  rw [Nat.sub_zero, List.drop_zero] at *
  rw [e]
  simp only [Option.bind_some, Option.pure_def]
  unfold run
  rw [r.error, r.user]

/-- C46, "whose lines fit": if no line is longer than 198 characters, the reader sees exactly the lines
of the text (each with its line feed; a last line without line feed is allowed). -/
theorem lines_whole (ws : List (List Byte)) (h : ∀ w ∈ ws, (10 : Byte) ∉ w ∧ w.length ≤ 198) (last : List Byte)
    (hl : (10 : Byte) ∉ last ∧ last.length ≤ 199) :
    lines ((ws.flatMap fun w => w ++ [10]) ++ last) =
      ws.map (· ++ [10]) ++ (if last = [] then [] else [last]) := by
  induction ws with
  | nil =>
    by_cases h0 : last = []
    · simp [h0, lines_nil]
    · simp [h0, lines_last hl.1 hl.2 h0]
  | cons w ws ih =>
    rw [List.flatMap_cons, List.append_assoc, List.append_assoc, List.singleton_append,
      lines_cons (h w (by simp)).1 (h w (by simp)).2, ih fun w' hw' => h w' (by simp [hw'])]
    simp

/-- No line is lost or duplicated, whatever the text: the delivered lines concatenate to the text, none is
empty or longer than 199 characters. -/
theorem lines_complete (text : List Byte) :
    (lines text).flatten = text ∧ ∀ l ∈ lines text, l ≠ [] ∧ l.length ≤ 199 := by
  generalize hn : text.length = n
  induction n using Nat.strongRecOn generalizing text with
  | ind n ih =>
    cases text with
    | nil => simp [lines_nil]
    | cons c rest =>
      have hlen : 1 ≤ lineLen (c :: rest) ∧ lineLen (c :: rest) ≤ 199 ∧
          lineLen (c :: rest) ≤ (c :: rest).length := by
        unfold lineLen
        simp only [List.length_cons]
        omega
      rw [lines]
      obtain ⟨h1, h2⟩ := ih ((c :: rest).drop (lineLen (c :: rest))).length
        (by rw [List.length_drop, ← hn]; simp only [List.length_cons] at *; omega) _ rfl
      refine ⟨by rw [List.flatten_cons, h1, List.take_append_drop], ?_⟩
      intro l hl
      rcases List.mem_cons.mp hl with rfl | hl
      · constructor
        · intro e
          have := congrArg List.length e
          rw [List.length_take, List.length_nil] at this
          omega
        · rw [List.length_take]; omega
      · exact h2 l hl

theorem report_error {σ : Type} (sp : Spec.St σ) (h : Handler σ) (n : List Byte) (v : Option (List Byte)) :
    ((sp.report h n v).error = sp.error ∨ sp.error = 0 ∧ (sp.report h n v).error = sp.lineno) ∧
      (sp.report h n v).lineno = sp.lineno := by
  unfold Spec.St.report Spec.St.fail
  by_cases h1 : (h sp.user sp.sec n v).2 = true
  · simp [h1]
  · by_cases h2 : sp.error = 0 <;> simp [h1, h2]

theorem step_error {σ : Type} (h : Handler σ) (sp : Spec.St σ) (l : List Byte) :
    ((step h sp l).error = sp.error ∨ sp.error = 0 ∧ (step h sp l).error = sp.lineno + 1) ∧
      (step h sp l).lineno = sp.lineno + 1 := by
  unfold step
  simp only []
  split
  · simp
  · simp
  · unfold Spec.St.fail
    by_cases h2 : sp.error = 0 <;> simp [h2]
  · exact report_error { sp with lineno := sp.lineno + 1, prev := _ } h _ _
  · split
    · exact report_error { sp with lineno := sp.lineno + 1 } h _ _
    · simp
  · exact report_error { sp with lineno := sp.lineno + 1 } h _ _

/-- C46: the value returned is the number of the *first* line in error: 0 if no prefix of the lines shows an
error, else `k + 1` where the first `k` lines show none and line `k + 1` does. -/
theorem error_is_first {σ : Type} (h : Handler σ) (text : List Byte) (user : σ) :
    let upTo := fun k => (((lines text).take k).foldl (step h)
      { sec := [], prev := [], lineno := 0, error := 0, user := user }).error
    ((run h text user).1 = 0 ∧ ∀ k, upTo k = 0) ∨
      ∃ k, k < (lines text).length ∧ (run h text user).1 = k + 1 ∧ upTo k = 0 ∧ upTo (k + 1) = k + 1 := by
  intro upTo
  have key : ∀ (ls : List (List Byte)) (sp : Spec.St σ), sp.error = 0 →
      ((ls.foldl (step h) sp).error = 0 ∧ ∀ k, ((ls.take k).foldl (step h) sp).error = 0) ∨
      ∃ k, k < ls.length ∧ (ls.foldl (step h) sp).error = sp.lineno + k + 1 ∧
        ((ls.take k).foldl (step h) sp).error = 0 ∧ ((ls.take (k + 1)).foldl (step h) sp).error = sp.lineno + k + 1 := by
    intro ls
    induction ls with
    | nil => intro sp h0; exact .inl ⟨h0, by simp [h0]⟩
    | cons l ls ih =>
      intro sp h0
      obtain ⟨he, hn⟩ := step_error h sp l
      by_cases hz : (step h sp l).error = 0
      · rcases ih _ hz with ⟨a, b⟩ | ⟨k, hk, a, b, c⟩
        · refine .inl ⟨a, ?_⟩
          intro k
          cases k with
          | zero => simpa using h0
          | succ k => rw [List.take_succ_cons, List.foldl_cons]; exact b k
        · refine .inr ⟨k + 1, by simpa using hk, ?_, ?_, ?_⟩
          · rw [List.foldl_cons, a, hn]; omega
          · rw [List.take_succ_cons, List.foldl_cons]; exact b
          · rw [List.take_succ_cons, List.foldl_cons, c, hn]; omega
      · have he' : (step h sp l).error = sp.lineno + 1 := by
          rcases he with he | he
          · exact absurd (he.trans h0) hz
          · exact he.2
        have stay : ∀ (ls : List (List Byte)) (sp : Spec.St σ), sp.error ≠ 0 →
            (ls.foldl (step h) sp).error = sp.error := by
          intro ls
          induction ls with
          | nil => intro sp _; rfl
          | cons l ls ih =>
            intro sp hne
            have := (step_error h sp l).1
            have e : (step h sp l).error = sp.error := by
              rcases this with e | e
              · exact e
              · exact absurd e.1 hne
            rw [List.foldl_cons, ih _ (by rw [e]; exact hne), e]
        refine .inr ⟨0, by simp, ?_, by simpa using h0, by simpa using he'⟩
        rw [List.foldl_cons, stay _ _ hz, he']
  rcases key (lines text) { sec := [], prev := [], lineno := 0, error := 0, user := user } rfl with h1 | h1
  · exact .inl h1
  · refine .inr ?_
    obtain ⟨k, a, b, c, d⟩ := h1
    simp only [Nat.zero_add] at b d
    exact ⟨k, a, b, c, d⟩

/-- The blanks of the specification are the six white-space characters of the C locale. -/
theorem isSpace_iff (c : Byte) : isSpace c = true ↔ c ∈ ([9, 10, 11, 12, 13, 32] : List Byte) := by
  have h : ∀ i : Fin 256, isSpace (UInt8.ofFin i) = true ↔
      UInt8.ofFin i ∈ ([9, 10, 11, 12, 13, 32] : List Byte) := by decide +kernel
  exact h c.toFin

/-- Finding: section names are cut to 49 characters, so two sections whose names agree that far are the same
section for the handler, whatever follows. -/
theorem section_names_cut {σ : Type} (h : Handler σ) (st : Spec.St σ) (n1 n2 ws : List Byte) (h1 : (93 : Byte) ∉ n1)
    (h2 : (93 : Byte) ∉ n2) (c1 : NoComment n1) (c2 : NoComment n2) (hw : ∀ c ∈ ws, isSpace c = true)
    (e : n1.take 49 = n2.take 49) :
    step h st (91 :: n1 ++ [93] ++ ws) = step h st (91 :: n2 ++ [93] ++ ws) := by
  unfold step
  simp only []
  rw [classify_section _ _ h1 c1 hw, classify_section _ _ h2 c2 hw]
  simp only [e]

/-! ### Examples -/

set_option synthInstance.maxSize 1000

/-- A handler that records what it is told and refuses the name `x`. -/
def exHandler : Handler (List (List Byte × List Byte × Option (List Byte))) :=
  fun u s n v => (u ++ [(s, n, v)], n != [120])

/-- `"[s] ;c\r\na=1 ;c\n  b\nx:2\n\n;=\nq"` -/
def exText : List Byte :=
  [91, 115, 93, 32, 59, 99, 13, 10, 97, 61, 49, 32, 59, 99, 10, 32, 32, 98, 10, 120, 58, 50, 10, 10, 59, 61, 10, 113]

/-- Section, pair, continuation, refused entry (line 4), blank, comment; the last line, a name without value
after an error, is *not* reported (quirk of the code). -/
example : parseString exHandler (exText ++ [0, 7, 7]) (List.replicate 200 85) [] =
    some (4, [([115], [97], some [49]), ([115], [97], some [98]), ([115], [120], some [50])]) := by decide +kernel

example : run exHandler exText [] = (4, [([115], [97], some [49]), ([115], [97], some [98]), ([115], [120], some [50])]) := by
  have := parseString_spec exHandler exText [7, 7] (List.replicate 200 85) [] (by decide) List.length_replicate
  have e : parseString exHandler (exText ++ [0, 7, 7]) (List.replicate 200 85) [] =
    some (4, [([115], [97], some [49]), ([115], [97], some [98]), ([115], [120], some [50])]) := by decide +kernel
  rw [e] at this
  exact (Option.some.inj this).symm

end Verif.IniReader
