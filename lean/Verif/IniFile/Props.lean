import Verif.IniFile.Model
import Verif.IniFile.Spec
import Verif.IniReader.Props
/-! # Properties of `ini_reader_parse_stream`, `ini_reader_parse_file` and `ini_reader_parse` (C92) -/
namespace Verif.IniFile
open Verif.IniReader Verif.IniFile.Spec
open Verif.IniReader.Spec (step lines lineLen)

/-- The contract of a reader function: called with the 200-byte buffer, it either returns NULL (whatever it
did to the bytes of the buffer), or stores the C string `l` in the buffer. -/
def Gives {ρ : Type} (rd : Reader ρ) (r : ρ) (l : List Byte) (r' : ρ) : Prop :=
  (0 : Byte) ∉ l ∧ ∀ m : Mem, m.length = 200 → ∃ after, rd m 200 r = some (l ++ 0 :: after, true, r') ∧
    (l ++ 0 :: after).length = 200

def Ends {ρ : Type} (rd : Reader ρ) (r : ρ) (r' : ρ) : Prop :=
  ∀ m : Mem, m.length = 200 → ∃ m' : Mem, rd m 200 r = some (m', false, r') ∧ m'.length = 200

/-- The reader, from state `r` on, gives the lines `ls` one by one and then NULL, ending in state `r'`. -/
inductive Reads {ρ : Type} (rd : Reader ρ) : ρ → List (List Byte) → ρ → Prop
  | done {r r' : ρ} : Ends rd r r' → Reads rd r [] r'
  | line {r r1 r' : ρ} {l : List Byte} {ls : List (List Byte)} : Gives rd r l r1 → Reads rd r1 ls r' →
      Reads rd r (l :: ls) r'

theorem streamLoop_reads {σ ρ : Type} (h : Handler σ) {rd : Reader ρ} {r r' : ρ} {ls : List (List Byte)}
    (hr : Reads rd r ls r') : ∀ (fuel : Nat) (st : St σ) (sp : IniReader.Spec.St σ), ls.length < fuel →
      Rep st sp → ∃ st', streamLoop h rd fuel r st = some (.ok (st', r')) ∧ Rep st' (ls.foldl (step h) sp) := by
  induction hr with
  | done e =>
    intro fuel st sp hf rep
    obtain ⟨fuel, rfl⟩ : ∃ k, fuel = k + 1 := ⟨fuel - 1, by omega⟩
    obtain ⟨m', e, _⟩ := e st.line rep.line
    refine ⟨st, ?_, rep⟩
    rw [streamLoop, e]
    rfl
  | @line r r1 r' l ls g _ ih =>
    intro fuel st sp hf rep
    obtain ⟨fuel, rfl⟩ : ∃ k, fuel = k + 1 := ⟨fuel - 1, by omega⟩
    obtain ⟨after, e, hlen⟩ := g.2 st.line rep.line
    obtain ⟨st1, e1, rep1⟩ := handleLine_rep (h := h) (st := { st with line := l ++ 0 :: after }) (sp := sp)
      ⟨rep.sec, rep.prev, hlen, rep.lineno, rep.error, rep.user, rep.first⟩ (l := l) (after := after) rfl g.1
    obtain ⟨st2, e2, rep2⟩ := ih fuel st1 _ (by simpa using hf) rep1
    refine ⟨st2, ?_, rep2⟩
    rw [streamLoop, e]
    simp only [Option.bind_eq_bind, Option.bind_some, if_true, e1, e2]

/-- **C92**, any reader: whatever reader function is used, if it keeps its contract and gives the lines `ls`
and then NULL, `ini_reader_parse_stream` stays inside its buffers, calls the reader exactly once per line and
once more, and tells the handler and returns exactly what the INI rules say for these lines. -/
theorem any_reader {σ ρ : Type} (h : Handler σ) (rd : Reader ρ) (r r' : ρ) (ls : List (List Byte))
    (hr : Reads rd r ls r') (garbage : Mem) (hg : garbage.length = 200) (user : σ) (fuel : Nat)
    (hf : ls.length < fuel) :
    parseStream h rd garbage fuel r user =
      some (.ok ((runLines h ls user).1, (runLines h ls user).2, r')) := by
  obtain ⟨st', e, rep⟩ := streamLoop_reads h hr fuel
    { line := garbage, sec := List.replicate 50 0, prev := List.replicate 50 0, lineno := 0, error := 0,
      user := user } { sec := [], prev := [], lineno := 0, error := 0, user := user } hf
    ⟨⟨⟨List.replicate 49 0, rfl⟩, by simp, by simp⟩, ⟨⟨List.replicate 49 0, rfl⟩, by simp, by simp⟩, hg, rfl,
      rfl, rfl, fun _ => rfl⟩
  unfold parseStream
  rw [e]
  simp only [Option.bind_eq_bind, Option.bind_some, Option.pure_def]
  unfold runLines
  rw [rep.error, rep.user]

/-! ### `fgets` -/

theorem fgetsLoop_eq : ∀ (n : Nat) (d rest u : List Byte) (fails : Bool), n ≤ rest.length →
    let k := min n (min (u.idxOf 10 + 1) u.length)
    fgetsLoop n (d ++ rest) d.length { rest := u, fails := fails } =
      some (d ++ (u.take k ++ rest.drop k), d.length + k, { rest := u.drop k, fails := fails },
        decide (k < n ∧ (10 : Byte) ∉ u)) := by
  intro n
  induction n with
  | zero => intro d rest u fails _ k; simp [fgetsLoop, k]
  | succ n ih =>
    intro d rest u fails hn k
    rw [fgetsLoop]
    cases u with
    | nil => simp [k]
    | cons c u =>
      cases rest with
      | nil => simp at hn
      | cons x rest =>
        simp only [Option.bind_eq_bind]
        rw [store_mid _ _ _ _ rfl, Option.bind_some]
        by_cases h10 : c = 10
        · have hk : k = 1 := by simp [k, h10]
          rw [if_pos h10, hk]
          simp [h10]
        · rw [if_neg h10]
          have e1 : d ++ c :: rest = (d ++ [c]) ++ rest := by simp
          have e2 : d.length + 1 = (d ++ [c]).length := by simp
          have hk : k = min n (min (u.idxOf 10 + 1) u.length) + 1 := by
            show min (n + 1) (min ((c :: u).idxOf 10 + 1) (c :: u).length) = _
            rw [List.idxOf_cons, List.length_cons]
            have : (c == 10) = false := by simpa using h10
            rw [this]
            simp only [cond_false]
            omega
          rw [e1, e2, ih (d ++ [c]) rest u fails (by simpa using hn), hk]
          generalize min n (min (u.idxOf 10 + 1) u.length) = q
          have h10' : ¬ (10 : Byte) = c := fun h => h10 h.symm
          simp [h10']
          omega

/-- What one `fgets` does with a buffer of 200 bytes. -/
theorem fgets_eq (m : Mem) (hm : m.length = 200) (u : List Byte) (fails : Bool) :
    (u ≠ [] → ¬ (fails = true ∧ whole (u.take (lineLen u)) = false) → ∃ after,
      fgets m 200 { rest := u, fails := fails } =
        some (u.take (lineLen u) ++ 0 :: after, true, { rest := u.drop (lineLen u), fails := fails }) ∧
      (u.take (lineLen u) ++ 0 :: after).length = 200) ∧
    (u = [] ∨ (fails = true ∧ whole (u.take (lineLen u)) = false) → ∃ m',
      fgets m 200 { rest := u, fails := fails } =
        some (m', false, { rest := [], fails := fails }) ∧ m'.length = 200) := by
  have e := fgetsLoop_eq 199 [] m u fails (by omega)
  obtain ⟨k, hk⟩ : ∃ k, k = lineLen u := ⟨_, rfl⟩
  have hk' : min 199 (min (u.idxOf 10 + 1) u.length) = k := hk.symm
  simp only [List.nil_append, List.length_nil, Nat.zero_add, hk'] at e
  have hk1 : k ≤ 199 := by omega
  have hk2 : k ≤ u.length := by omega
  have hk0 : u ≠ [] → 0 < k := by
    intro h
    have : 0 < u.length := List.length_pos_iff.mpr h
    omega
  rw [← hk]
  have hwhole : u ≠ [] → (whole (u.take k) = false ↔ (k < 199 ∧ (10 : Byte) ∉ u)) := by
    intro hne
    have h0 := hk0 hne
    unfold whole
    have hl : (u.take k).length = k := by simp; omega
    have hgl : (u.take k).getLast? = u[k - 1]? := by
      rw [List.getLast?_eq_getElem?, hl, List.getElem?_take]
      simp; omega
    rw [hgl, hl]
    by_cases hin : (10 : Byte) ∈ u
    · have hi : u.idxOf 10 < u.length := List.idxOf_lt_length_iff.mpr hin
      by_cases hb : u.idxOf 10 + 1 ≤ 199
      · have : k - 1 = u.idxOf 10 := by omega
        rw [this, List.getElem?_eq_getElem hi, List.getElem_idxOf]
        simp [hin]
      · have : k = 199 := by omega
        simp [this]
    · have hi : u.idxOf 10 = u.length := List.idxOf_eq_length hin
      have hk3 : k = min 199 u.length := by omega
      have : (u[k - 1]? == some 10) = false := by
        rw [List.getElem?_eq_getElem (by omega)]
        have hmem : u[k - 1]'(by omega) ∈ u := List.getElem_mem _
        simp only [beq_eq_false_iff_ne, ne_eq, Option.some.injEq]
        intro h
        exact hin (h ▸ hmem)
      rw [this]
      simp [hin]
      omega
  have hrest : m.drop k = m[k]'(by omega) :: m.drop (k + 1) := List.drop_eq_getElem_cons (by omega)
  have htl : (u.take k).length = k := by simp; omega
  have hshort : (k < 199 ∧ (10 : Byte) ∉ u) → u.drop k = [] := by
    intro ⟨h1, h2⟩
    have hi : u.idxOf 10 = u.length := List.idxOf_eq_length h2
    exact List.drop_eq_nil_of_le (by omega)
  constructor
  · intro hne hw
    refine ⟨m.drop (k + 1), ?_, by
      rw [List.length_append, htl, List.length_cons, List.length_drop]; omega⟩
    unfold fgets
    rw [show (200 : Nat) - 1 = 199 from rfl, e]
    simp only [Option.bind_eq_bind, Option.bind_some, decide_eq_true_eq]
    rw [if_neg, hrest, store_mid _ _ _ _ htl.symm]
    · simp
    · rintro ⟨h1, h2 | h2⟩
      · exact hw ⟨h2, (hwhole hne).mpr h1⟩
      · have := hk0 hne; omega
  · intro hw
    refine ⟨u.take k ++ m.drop k, ?_, by rw [List.length_append, htl, List.length_drop]; omega⟩
    have hcase : (k < 199 ∧ (10 : Byte) ∉ u) ∧ (fails = true ∨ k = 0) := by
      by_cases hne : u = []
      · subst hne
        have : k = 0 := by simpa using hk2
        simp [this]
      · rcases hw with h | h
        · exact absurd h hne
        · exact ⟨(hwhole hne).mp h.2, .inl h.1⟩
    unfold fgets
    rw [show (200 : Nat) - 1 = 199 from rfl, e]
    simp only [Option.bind_eq_bind, Option.bind_some, decide_eq_true_eq]
    rw [if_pos hcase, hshort hcase.1]

theorem seen_split {l : List Byte} {rest : List Byte} :
    ∃ after, l ++ 0 :: rest = seen l ++ 0 :: after ∧ (0 : Byte) ∉ seen l := by
  induction l with
  | nil => exact ⟨rest, rfl, by simp [seen]⟩
  | cons c l ih =>
    by_cases hc : c = 0
    · refine ⟨l ++ 0 :: rest, ?_, ?_⟩ <;> simp [seen, hc]
    · obtain ⟨after, e, h0⟩ := ih
      have es : seen (c :: l) = c :: seen l := by simp [seen, hc]
      refine ⟨after, by rw [es, List.cons_append, List.cons_append, e], ?_⟩
      rw [es]
      simp only [List.mem_cons, not_or]
      exact ⟨fun h => hc h.symm, h0⟩

theorem unfinished_last {u : List Byte} (h : whole (u.take (lineLen u)) = false) : u.drop (lineLen u) = [] := by
  by_cases hne : u = []
  · simp [hne]
  · have e := (fgets_eq (List.replicate 200 0) List.length_replicate u true).2 (.inr ⟨rfl, h⟩)
    obtain ⟨m', e, -⟩ := e
    have e2 := fgetsLoop_eq 199 [] (List.replicate 200 0) u true (by rw [List.length_replicate]; omega)
    simp only [List.nil_append] at e2
    unfold fgets at e
    rw [show (200 : Nat) - 1 = 199 from rfl, show (0 : Nat) = ([] : List Byte).length from rfl, e2] at e
    simp only [Option.bind_eq_bind, Option.bind_some] at e
    split at e
    · injection e with e
      injection e with _ e
      injection e with _ e
      injection e
    · exfalso
      revert e
      cases Mem.store _ _ _ <;> simp

/-- What `fgets` delivers, call by call, until it returns NULL. -/
theorem file_reads (fails : Bool) (u : List Byte) :
    Reads fgets { rest := u, fails := fails } ((delivered u fails).map seen) { rest := [], fails := fails } := by
  generalize hn : u.length = n
  induction n using Nat.strongRecOn generalizing u with
  | ind n ih =>
    by_cases hne : u = []
    · subst hne
      have : delivered [] fails = [] := by unfold delivered; rw [IniReader.lines_nil]; cases fails <;> rfl
      rw [this]
      exact .done fun m hm => (fgets_eq m hm [] fails).2 (.inl rfl)
    · have hlen : 0 < u.length := List.length_pos_iff.mpr hne
      have hk : 1 ≤ lineLen u ∧ lineLen u ≤ 199 ∧ lineLen u ≤ u.length := by
        unfold lineLen
        omega
      have hl : lines u = u.take (lineLen u) :: lines (u.drop (lineLen u)) := by
        cases u with
        | nil => exact absurd rfl hne
        | cons c u => rw [lines]
      by_cases hw : fails = true ∧ whole (u.take (lineLen u)) = false
      · have hd : u.drop (lineLen u) = [] := unfinished_last hw.2
        have : delivered u fails = [] := by
          unfold delivered
          rw [if_pos hw.1, hl, hd, IniReader.lines_nil, List.filter_cons, hw.2]
          rfl
        rw [this]
        exact .done fun m hm => (fgets_eq m hm u fails).2 (.inr hw)
      · have : delivered u fails = u.take (lineLen u) :: delivered (u.drop (lineLen u)) fails := by
          unfold delivered
          rw [hl]
          cases fails with
          | false => rfl
          | true =>
            have : whole (u.take (lineLen u)) = true := by simpa using hw
            simp [this]
        rw [this, List.map_cons]
        refine .line ⟨?_, fun m hm => ?_⟩ (ih _ (by rw [List.length_drop]; omega) _ rfl)
        · exact (seen_split (rest := [])).choose_spec.2
        · obtain ⟨after, e, el⟩ := (fgets_eq m hm u fails).1 hne hw
          obtain ⟨after', e', _⟩ := seen_split (l := u.take (lineLen u)) (rest := after)
          exact ⟨after', by rw [e, e'], by rw [← e']; exact el⟩

theorem delivered_length (u : List Byte) (fails : Bool) : (delivered u fails).length ≤ u.length := by
  have h : (lines u).length ≤ u.length := by
    obtain ⟨hf, hl⟩ := IniReader.lines_complete u
    have : ∀ ls : List (List Byte), (∀ l ∈ ls, l ≠ []) → ls.length ≤ ls.flatten.length := by
      intro ls
      induction ls with
      | nil => intro _; simp
      | cons l ls ih =>
        intro h
        have h1 : 0 < l.length := List.length_pos_iff.mpr (h l (by simp))
        have h2 := ih fun l hl => h l (by simp [hl])
        simp only [List.length_cons, List.flatten_cons, List.length_append]
        omega
    have h1 := this (lines u) fun l hm => (hl l hm).1
    rwa [hf] at h1
  unfold delivered
  split
  · exact Nat.le_trans (List.length_filter_le _ _) h
  · exact h

/-- **C92**, `ini_reader_parse_file`: for every content of the file (NUL bytes included), every point at which
reading may fail and every handler. -/
theorem parse_file {σ : Type} (h : Handler σ) (garbage : Mem) (hg : garbage.length = 200) (content : List Byte)
    (fails : Bool) (user : σ) :
    parseFile h garbage { rest := content, fails := fails } user =
      some (.ok ((runLines h ((delivered content fails).map seen) user).1,
        (runLines h ((delivered content fails).map seen) user).2, { rest := [], fails := fails })) :=
  any_reader h fgets _ _ _ (file_reads fails content) garbage hg user _
    (by have := delivered_length content fails; simp only [List.length_map]; omega)

/-- **C92**, `ini_reader_parse`: -1 and no call of the handler if the file cannot be opened; otherwise what the
INI rules say for the delivered lines.  Every stream opened is closed. -/
theorem parse_named {σ : Type} (h : Handler σ) (garbage : Mem) (hg : garbage.length = 200) (user : σ) :
    parse h garbage none user = some (.ok { ret := -1, user := user, opened := 0, closed := 0 }) ∧
    ∀ (content : List Byte) (fails : Bool), parse h garbage (some { rest := content, fails := fails }) user =
      some (.ok { ret := ((runLines h ((delivered content fails).map seen) user).1 : Nat),
                  user := (runLines h ((delivered content fails).map seen) user).2, opened := 1, closed := 1 }) := by
  refine ⟨rfl, fun content fails => ?_⟩
  unfold parse
  simp only [parse_file h garbage hg, Option.bind_eq_bind, Option.bind_some]

/-- C92: a readable file without NUL bytes is treated exactly like its content given as a string (C46). -/
theorem parse_file_eq_parse_string {σ : Type} (h : Handler σ) (garbage : Mem) (hg : garbage.length = 200)
    (content after : List Byte) (h0 : (0 : Byte) ∉ content) (user : σ) :
    parse h garbage (some { rest := content, fails := false }) user =
      (parseString h (content ++ 0 :: after) garbage user).map fun r =>
        .ok { ret := (r.1 : Nat), user := r.2, opened := 1, closed := 1 } := by
  rw [(parse_named h garbage hg user).2, parseString_spec h content after garbage user h0 hg]
  have hm : (delivered content false).map seen = lines content := by
    unfold delivered
    simp only [Bool.false_eq_true, if_false]
    have : ∀ l ∈ lines content, seen l = l := by
      intro l hl
      unfold seen
      have hne : (0 : Byte) ∉ l := by
        intro hc
        have : (0 : Byte) ∈ (lines content).flatten := List.mem_flatten.mpr ⟨l, hl, hc⟩
        rw [(IniReader.lines_complete content).1] at this
        exact h0 this
      clear hl
      induction l with
      | nil => rfl
      | cons c l ih =>
        have hc : c ≠ 0 := fun h => hne (by simp [h])
        rw [List.takeWhile_cons]
        simp only [ne_eq, hc, not_false_eq_true, decide_true, if_true]
        rw [ih fun h => hne (List.mem_cons_of_mem _ h)]
    rw [List.map_congr_left this, List.map_id']
  rw [hm]
  rfl

/-- Finding: a read error is not reported.  A file whose reading fails after the complete lines `ws` (in the
middle of the next line `cut`, or right after them) gives the same result as a file that simply ends there. -/
theorem read_error_unreported {σ : Type} (h : Handler σ) (garbage : Mem) (hg : garbage.length = 200)
    (ws : List (List Byte)) (hw : ∀ w ∈ ws, (10 : Byte) ∉ w ∧ w.length ≤ 198) (cut : List Byte)
    (hc : (10 : Byte) ∉ cut ∧ cut.length ≤ 198) (user : σ) :
    parse h garbage (some { rest := (ws.flatMap fun w => w ++ [10]) ++ cut, fails := true }) user =
      parse h garbage (some { rest := ws.flatMap fun w => w ++ [10], fails := false }) user := by
  rw [(parse_named h garbage hg user).2, (parse_named h garbage hg user).2]
  have e : delivered ((ws.flatMap fun w => w ++ [10]) ++ cut) true = delivered (ws.flatMap fun w => w ++ [10]) false := by
    have e0 := lines_whole ws hw [] ⟨by simp, by simp⟩
    simp only [List.append_nil, if_true] at e0
    unfold delivered
    simp only [if_true, Bool.false_eq_true, if_false]
    rw [e0, lines_whole ws hw cut ⟨hc.1, by omega⟩, List.filter_append]
    have h1 : (ws.map (· ++ [10])).filter whole = ws.map (· ++ [10]) := by
      rw [List.filter_eq_self]
      intro l hl
      obtain ⟨w, -, rfl⟩ := List.mem_map.mp hl
      simp [whole]
    have h2 : (if cut = [] then [] else [cut]).filter whole = [] := by
      split
      · rfl
      · have : whole cut = false := by
          unfold whole
          have h3 : cut.getLast? ≠ some 10 := fun h => hc.1 (List.mem_of_getLast? h)
          have h4 : cut.length ≠ 199 := by omega
          simp [h3, h4]
        simp [this]
    rw [h1, h2, List.append_nil]
  rw [e]

/-- Finding: a NUL byte hides the rest of its line, silently: what stands between it and the line feed makes
no difference. -/
theorem nul_hides_rest {σ : Type} (h : Handler σ) (garbage : Mem) (hg : garbage.length = 200) (user : σ)
    (w x rest : List Byte) (hw : (10 : Byte) ∉ w) (hx : (10 : Byte) ∉ x) (hl : w.length + x.length ≤ 197)
    (fails : Bool) :
    parse h garbage (some { rest := w ++ 0 :: x ++ 10 :: rest, fails := fails }) user =
      parse h garbage (some { rest := w ++ [0] ++ 10 :: rest, fails := fails }) user := by
  rw [(parse_named h garbage hg user).2, (parse_named h garbage hg user).2]
  have hd : ∀ y : List Byte, (10 : Byte) ∉ y → w.length + y.length ≤ 197 →
      (delivered (w ++ 0 :: y ++ 10 :: rest) fails).map seen = seen w :: (delivered rest fails).map seen := by
    intro y hy hyl
    have hs : seen (w ++ 0 :: y ++ [10]) = seen w := by
      unfold seen
      have hgen : ∀ w' : List Byte, (w' ++ 0 :: y ++ [10]).takeWhile (· ≠ 0) = w'.takeWhile (· ≠ 0) := by
        intro w'
        induction w' with
        | nil => simp
        | cons c w' ih =>
          by_cases hc : c = 0
          · simp [hc]
          · simpa [hc] using ih
      exact hgen w
    have hline : lines (w ++ 0 :: y ++ 10 :: rest) = (w ++ 0 :: y ++ [10]) :: lines rest :=
      lines_cons (w := w ++ 0 :: y) (by simp [hw, hy]) (by simp; omega)
    have hwh : whole (w ++ 0 :: y ++ [10]) = true := by unfold whole; rw [List.getLast?_concat]; rfl
    unfold delivered
    rw [hline]
    cases fails
    · simp only [Bool.false_eq_true, if_false, List.map_cons, hs]
    · simp only [if_true, List.filter_cons, hwh, List.map_cons, hs]
  have h1 := hd x hx (by omega)
  have h2 := hd [] (by simp) (by simp; omega)
  rw [h1, h2]

/-! ### Examples -/

/-- `"a=1\n[s]\nb=2\0 junk\nc=3"` -/
def exContent : List Byte := [97, 61, 49, 10, 91, 115, 93, 10, 98, 61, 50, 0, 32, 106, 10, 99, 61, 51]

/-- What an example is compared by. -/
def view {σ : Type} : Option (Except Unit (Outcome σ)) → Option (Int × σ × Nat × Nat)
  | some (.ok o) => some (o.ret, o.user, o.opened, o.closed)
  | _ => none

set_option synthInstance.maxSize 1000

/-- The NUL cuts the third line, the last line without line feed counts at the end of the file … -/
example : view (parse exHandler (List.replicate 200 85) (some { rest := exContent, fails := false }) []) =
    some (0, [([], [97], some [49]), ([115], [98], some [50]), ([115], [99], some [51])], 1, 1) := by
  decide +kernel

/-- … and is lost, without a word, if a read error comes instead. -/
example : view (parse exHandler (List.replicate 200 85) (some { rest := exContent, fails := true }) []) =
    some (0, [([], [97], some [49]), ([115], [98], some [50])], 1, 1) := by
  decide +kernel

end Verif.IniFile
