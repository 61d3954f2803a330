import Verif.IniParser.History
import Verif.IniReader.Props
import Verif.StringBuilder.Props
/-! # Dump and parse (C45) -/
namespace Verif.IniParser
open Spec
open StringBuilder (Sb Alloc)

/-! ### What is dumped -/

theorem sb_fmt {sb : Sb} {text t : List Byte} {a : Alloc} (h : StringBuilder.Spec.Holds sb text) (ht : t ≠ [])
    (hl : t.length < 2 ^ 31) (hs : text.length + t.length + 1 < 2 ^ 62) (ha : a.isSome) :
    ∃ sb', StringBuilder.appendf sb (some t) a = some (sb', 0) ∧ StringBuilder.Spec.Holds sb' (text ++ t) :=
  StringBuilder.append_succeeds h (.fmt (some t) a) ⟨t, rfl, hl⟩ (by simpa [StringBuilder.Spec.piece] using ht)
    (by simpa [StringBuilder.Spec.piece] using hs) ha

theorem sb_crlf {sb : Sb} {text : List Byte} {a : Alloc} (h : StringBuilder.Spec.Holds sb text)
    (hs : text.length + 2 + 1 < 2 ^ 62) (ha : a.isSome) :
    ∃ sb', StringBuilder.appendstr sb [13, 10, 0] a = some (sb', 0) ∧
      StringBuilder.Spec.Holds sb' (text ++ [13, 10]) := by
  have hp : StringBuilder.Spec.piece (.str [13, 10, 0] a) = [13, 10] := by
    simp [StringBuilder.Spec.piece]
  have := StringBuilder.append_succeeds h (.str [13, 10, 0] a) ⟨by simp, by decide⟩ (by rw [hp]; simp)
    (by rw [hp]; simpa using hs) ha
  rw [hp] at this
  exact this

/-- the fixed arrays bound the lengths -/
def Small (D : LDoc) : Prop :=
  ∀ x ∈ D, x.1.length ≤ 63 ∧ ∀ kv ∈ x.2, kv.key.length ≤ 63 ∧ kv.value.length ≤ 255

theorem dumpKvs_ok {al : Nat → Alloc} (hal : ∀ i, (al i).isSome) : ∀ (kvs : List KV) (sb : Sb) (n : Nat)
    (text : List Byte), StringBuilder.Spec.Holds sb text →
    (∀ kv ∈ kvs, kv.key.length ≤ 63 ∧ kv.value.length ≤ 255) →
    text.length + (kvs.flatMap entryText).length + 1 < 2 ^ 62 →
    ∃ sb' n', dumpKvs al sb n kvs = some (sb', n', 0) ∧
      StringBuilder.Spec.Holds sb' (text ++ kvs.flatMap entryText) := by
  intro kvs
  induction kvs with
  | nil => intro sb n text h _ _; exact ⟨sb, n, rfl, by simpa using h⟩
  | cons kv kvs ih =>
    intro sb n text h hsm hl
    have hkv := hsm kv (by simp)
    rw [List.flatMap_cons, List.length_append] at hl
    have he : (entryText kv).length = kv.key.length + kv.value.length + 5 := by
      simp [entryText]; omega
    obtain ⟨sb1, e1, h1⟩ := sb_fmt (t := entryText kv) (a := al n) h (by
      intro e; rw [e] at he; simp at he) (by rw [he]; omega) (by omega) (hal n)
    obtain ⟨sb2, n2, e2, h2⟩ := ih sb1 (n + 1) _ h1 (fun x hx => hsm x (by simp [hx])) (by
      rw [List.length_append]; omega)
    refine ⟨sb2, n2, ?_, by rw [List.flatMap_cons, ← List.append_assoc]; exact h2⟩
    unfold dumpKvs
    rw [show kv.key ++ [32, 61, 32] ++ kv.value ++ [13, 10] = entryText kv from rfl, e1]
    simpa using e2

theorem dumpSecs_ok {al : Nat → Alloc} (hal : ∀ i, (al i).isSome) : ∀ (secs : List Sec) (sb : Sb) (n : Nat)
    (text : List Byte), StringBuilder.Spec.Holds sb text → Small (secs.map fun s => (s.name, s.kvs)) →
    text.length + (render (secs.map fun s => (s.name, s.kvs))).length + 1 < 2 ^ 62 →
    ∃ sb', dumpSecs al sb n 0 secs = some (sb', 0) ∧
      StringBuilder.Spec.Holds sb' (text ++ render (secs.map fun s => (s.name, s.kvs))) := by
  intro secs
  induction secs with
  | nil => intro sb n text h _ _; exact ⟨sb, rfl, by simpa [render] using h⟩
  | cons s secs ih =>
    intro sb n text h hsm hl
    obtain ⟨hn, hkvs⟩ := hsm (s.name, s.kvs) (by simp)
    simp only [] at hn hkvs
    have hr : (render ((s.name, s.kvs) :: secs.map fun s => (s.name, s.kvs))).length =
        s.name.length + (s.kvs.flatMap entryText).length + 6 +
          (render (secs.map fun s => (s.name, s.kvs))).length := by
      simp [render, sectionText]; omega
    rw [List.map_cons, hr] at hl
    obtain ⟨sb1, e1, h1⟩ := sb_fmt (t := [91] ++ s.name ++ [93, 13, 10]) (a := al n) h (by simp) (by simp; omega)
      (by simp; omega) (hal n)
    obtain ⟨sb2, n2, e2, h2⟩ := dumpKvs_ok hal s.kvs sb1 (n + 1) _ h1 hkvs (by
      simp only [List.length_append, List.length_cons, List.length_nil]; omega)
    obtain ⟨sb3, e3, h3⟩ := sb_crlf (a := al n2) h2 (by
      simp only [List.length_append, List.length_cons, List.length_nil]; omega) (hal n2)
    obtain ⟨sb4, e4, h4⟩ := ih sb3 (n2 + 1) _ h3 (fun x hx => hsm x (by simp at hx ⊢; exact .inr hx)) (by
      simp only [List.length_append, List.length_cons, List.length_nil]; omega)
    refine ⟨sb4, ?_, ?_⟩
    · unfold dumpSecs
      rw [if_neg (by simp), e1]
      simp only []
      rw [e2]
      simp only []
      rw [e3]
      exact e4
    · rw [List.map_cons]
      have : render ((s.name, s.kvs) :: secs.map fun s => (s.name, s.kvs)) =
          sectionText s.name s.kvs ++ render (secs.map fun s => (s.name, s.kvs)) := by
        simp [render]
      rw [this]
      unfold sectionText
      simpa [List.append_assoc] using h4

theorem sb_create {init : Nat} (hi : init < 2 ^ 62) (j : Nat → Byte) :
    ∃ sb, StringBuilder.create init true (some j) = some (some sb) ∧ StringBuilder.Spec.Holds sb [] := by
  have hi : StringBuilder.initSize init < 2 ^ 63 ∧ 0 < StringBuilder.initSize init := by
    unfold StringBuilder.initSize; split <;> omega
  have hp := Mem.poke_front (out := [] ++ StringBuilder.fresh j (StringBuilder.initSize init - ([] : Mem).length))
    (w := []) 0 (by simp [StringBuilder.fresh]; omega)
  rw [Mem.front_nil] at hp
  simp only [List.length_nil] at hp
  refine ⟨Sb.mk (Mem.front ([] ++ StringBuilder.fresh j (StringBuilder.initSize init - 0)) ([] ++ [0]))
    (StringBuilder.initSize init) 0, ?_, ?_⟩
  · unfold StringBuilder.create
    simp only [if_true, StringBuilder.realloc]
    rw [if_pos hi.1]
    simp only [List.length_nil]
    rw [hp]
    rfl
  · refine ⟨?_, hi.1, rfl, ?_⟩
    · simp [Mem.front, StringBuilder.fresh]; omega
    · exact ⟨_, rfl⟩

/-- With memory available, `ini_parser_dump_to_mem` writes the text of the document, or reports that the memory
offered is too small. -/
theorem dumpToMem_eq {p : Parser} (hsm : Small (docOf p)) (h0 : (0 : Byte) ∉ render (docOf p))
    (hsize : p.pred + 64 < 2 ^ 62 ∧ (render (docOf p)).length + 1 < 2 ^ 62) (j : Nat → Byte) {al : Nat → Alloc}
    (hal : ∀ i, (al i).isSome) (mem : Mem) (size : Nat) (hm : size ≤ mem.length) :
    dumpToMem p mem size true (some j) al = some
      (if size < p.pred + 64 then (mem, size, .noMemory)
       else if p.secs = [] then (mem, size, .failed)
       else if size < (render (docOf p)).length + 1 then (mem, size, .noMemory)
       else (render (docOf p) ++ 0 :: mem.drop ((render (docOf p)).length + 1), (render (docOf p)).length + 1,
         .succeed)) := by
  unfold dumpToMem
  by_cases h1 : size < p.pred + 64
  · simp only [h1, if_true]
  · simp only [h1, if_false]
    obtain ⟨sb, e, hs⟩ := sb_create hsize.1 j
    obtain ⟨sb', e', hs'⟩ := dumpSecs_ok hal p.secs sb 0 [] hs hsm (by simpa [docOf] using hsize.2)
    unfold dumpIni
    rw [e]
    simp only []
    rw [e']
    simp only [Option.map_some, ne_eq, not_true_eq_false, if_false]
    rw [List.nil_append] at hs'
    have hs'' : StringBuilder.Spec.Holds sb' (render (docOf p)) := hs'
    rw [StringBuilder.to_string_is_text hs'' h0]
    simp only []
    show (if render (docOf p) = [] then _ else _) = _
    have hnil : render (docOf p) = [] ↔ p.secs = [] := by
      unfold docOf
      cases p.secs with
      | nil => simp [render]
      | cons x l => simp [render, sectionText]
    by_cases h2 : p.secs = []
    · rw [if_pos (hnil.mpr h2), if_pos h2]
    · rw [if_neg (fun hh => h2 (hnil.mp hh)), if_neg h2]
      by_cases h3 : size < (render (docOf p)).length + 1
      · rw [if_pos h3, if_pos h3]
      · rw [if_neg h3, if_neg h3, Mem.store_eq_some (by simp; omega)]
        simp

/-! ### Reading it back -/

theorem handlerCb_put {p : Parser} (h : Inv p) {s k v : List Byte} (hs : s ≠ []) (hk : k ≠ []) (hsl : s.length ≤ 63)
    (hkl : k.length ≤ 63) (hv : v.length ≤ 255) :
    ∃ p', handlerCb (some p) s k (some v) = (some p', true) ∧ Inv p' ∧ docOf p' = putL s k v (docOf p) := by
  obtain ⟨p', e, hi, hd, _⟩ := put_ok h (some v) hs hk hsl hkl
  refine ⟨p', ?_, hi, by rw [hd, Option.getD_some, List.take_of_length_le hv]⟩
  unfold handlerCb
  simp only []
  rw [e]
  rfl

open IniReader.Spec (lines)

/-- the lines of a section -/
def secLines (n : List Byte) (kvs : List KV) : List (List Byte) :=
  ([91] ++ n ++ [93, 13, 10]) :: (kvs.map entryText ++ [[13, 10]])

theorem lines_kvs {kvs : List KV} (h : ∀ kv ∈ kvs, GoodEntry kv) (rest : List Byte) :
    lines (kvs.flatMap entryText ++ [13, 10] ++ rest) = kvs.map entryText ++ [[13, 10]] ++ lines rest := by
  induction kvs with
  | nil =>
    have := IniReader.lines_cons (w := [13]) (rest := rest) (by simp) (by simp)
    simpa using this
  | cons kv kvs ih =>
    obtain ⟨_, _, hl, ⟨_, hk10, _⟩, _, _, _, ⟨_, hv10⟩, _⟩ := h kv (by simp)
    have := IniReader.lines_cons (w := kv.key ++ [32, 61, 32] ++ kv.value ++ [13])
      (rest := kvs.flatMap entryText ++ [13, 10] ++ rest) (by simp [hk10, hv10]) (by simp; omega)
    rw [ih fun x hx => h x (by simp [hx])] at this
    rw [List.flatMap_cons, List.map_cons]
    simpa [entryText, List.append_assoc] using this

theorem lines_render {D : LDoc} (h : ∀ x ∈ D, GoodName x.1 ∧ ∀ kv ∈ x.2, GoodEntry kv) :
    lines (render D) = D.flatMap fun x => secLines x.1 x.2 := by
  induction D with
  | nil => simp [render, IniReader.lines_nil]
  | cons x D ih =>
    obtain ⟨⟨_, hl, _, h10, _⟩, hk⟩ := h x (by simp)
    have e : render (x :: D) = ([91] ++ x.1 ++ [93, 13]) ++ 10 :: (x.2.flatMap entryText ++ [13, 10] ++ render D) := by
      simp [render, sectionText]
    rw [e, IniReader.lines_cons (by simp [h10]) (by simp; omega), lines_kvs hk, ih fun y hy => h y (by simp [hy])]
    simp [secLines]

open IniReader.Spec in
theorem step_section {st : IniReader.Spec.St (Option Parser)} {n : List Byte} (h : GoodName n) :
    IniReader.Spec.step handlerCb st ([91] ++ n ++ [93, 13, 10]) =
      { st with lineno := st.lineno + 1, sec := n, prev := [] } := by
  obtain ⟨_, hl, _, _, h93, hc⟩ := h
  unfold IniReader.Spec.step
  have := IniReader.classify_section (decide (st.lineno + 1 = 1)) (decide (st.prev ≠ [])) (n := n) (ws := [13, 10])
    h93 hc (by decide)
  rw [show [91] ++ n ++ [93, 13, 10] = 91 :: n ++ [93] ++ [13, 10] by simp]
  simp only []
  rw [this]
  simp only []
  rw [List.take_of_length_le hl]

theorem step_blank {st : IniReader.Spec.St (Option Parser)} :
    IniReader.Spec.step handlerCb st [13, 10] = { st with lineno := st.lineno + 1 } := by
  unfold IniReader.Spec.step
  simp only []
  rw [IniReader.classify_blank _ _ (by decide)]

theorem step_entry {st : IniReader.Spec.St (Option Parser)} {kv : KV} (hg : GoodEntry kv) {p : Parser}
    (hu : st.user = some p) (hi : Inv p) (hn : st.lineno ≠ 0) (hs : GoodName st.sec) :
    ∃ p', Inv p' ∧ docOf p' = putL st.sec kv.key kv.value (docOf p) ∧
      IniReader.Spec.step handlerCb st (entryText kv) =
        { st with lineno := st.lineno + 1, prev := kv.key.take 49, user := some p' } := by
  obtain ⟨hk0, hkl, hl, ⟨_, _, hk61, hk58⟩, hkh, hkt, hkc, _, hv59, hvt, hvc⟩ := hg
  obtain ⟨p', e, hi', hd⟩ := handlerCb_put (v := kv.value) hi hs.1 hk0 (by have := hs.2.1; omega) hkl (by omega)
  refine ⟨p', hi', hd, ?_⟩
  unfold IniReader.Spec.step
  have hfirst : decide (st.lineno + 1 = 1) = false := by simp [hn]
  have := IniReader.classify_pair (decide (st.lineno + 1 = 1)) (decide (st.prev ≠ [])) (k := kv.key) (v := kv.value)
    (ws := [13, 10]) hk0 hkt hkc hk61 hk58 hkh (by rw [hfirst]; simp) hvt hvc hv59 (by decide)
  rw [show entryText kv = kv.key ++ [32, 61, 32] ++ kv.value ++ [13, 10] from rfl]
  simp only []
  rw [this]
  simp only [IniReader.Spec.St.report]
  rw [hu, e]
  simp

theorem fold_entries (kvs : List KV) : ∀ (st : IniReader.Spec.St (Option Parser)) (p : Parser),
    (∀ kv ∈ kvs, GoodEntry kv) → st.user = some p → Inv p → st.lineno ≠ 0 → GoodName st.sec →
    ∃ st' p', (kvs.map entryText).foldl (IniReader.Spec.step handlerCb) st = st' ∧ st'.user = some p' ∧ Inv p' ∧
      st'.lineno ≠ 0 ∧ st'.sec = st.sec ∧ st'.error = st.error ∧
      docOf p' = kvs.foldl (fun D kv => putL st.sec kv.key kv.value D) (docOf p) := by
  induction kvs with
  | nil => intro st p _ hu hi hn _; exact ⟨st, p, rfl, hu, hi, hn, rfl, rfl, rfl⟩
  | cons kv kvs ih =>
    intro st p hg hu hi hn hs
    obtain ⟨p1, hi1, hd1, e1⟩ := step_entry (hg kv (by simp)) hu hi hn hs
    obtain ⟨st2, p2, e2, hu2, hi2, hn2, hs2, he2, hd2⟩ := ih
      { st with lineno := st.lineno + 1, prev := kv.key.take 49, user := some p1 } p1
      (fun x hx => hg x (by simp [hx])) rfl hi1 (by simp) hs
    refine ⟨st2, p2, ?_, hu2, hi2, hn2, hs2, he2, ?_⟩
    · rw [List.map_cons, List.foldl_cons, e1]; exact e2
    · rw [List.foldl_cons, ← hd1]; exact hd2

/-- putting the entries of one section into a document without that section -/
theorem fold_putL (n : List Byte) (kvs : List KV) (hu : kvs.Pairwise fun a b => norm a.key ≠ norm b.key) (D : LDoc)
    (hD : hasL D (norm n) = false) :
    kvs.foldl (fun D kv => putL n kv.key kv.value D) D = if kvs = [] then D else D ++ [(n, kvs)] := by
  cases kvs with
  | nil => rfl
  | cons kv kvs =>
    rw [if_neg (by simp), List.foldl_cons, putL_append hD]
    have key : ∀ (kvs pre : List KV), (pre ++ kvs).Pairwise (fun a b => norm a.key ≠ norm b.key) →
        kvs.foldl (fun D kv => putL n kv.key kv.value D) (D ++ [(n, pre)]) = D ++ [(n, pre ++ kvs)] := by
      intro kvs
      induction kvs with
      | nil => intro pre _; simp
      | cons x kvs ih =>
        intro pre hp
        have e1 : putL n x.key x.value (D ++ [(n, pre)]) = D ++ [(n, pre ++ [x])] := by
          have hk : putK x.key x.value pre = pre ++ [x] := by
            have : ∀ y ∈ pre, norm y.key ≠ norm x.key := by
              intro y hy
              rw [List.pairwise_append] at hp
              exact hp.2.2 y hy x (by simp)
            clear hp ih
            induction pre with
            | nil => rfl
            | cons y pre ih =>
              unfold putK
              rw [if_neg (this y (by simp)), ih fun z hz => this z (by simp [hz])]
              rfl
          clear hp ih
          induction D with
          | nil => simp [putL, hk]
          | cons z D ih =>
            rw [hasL_cons, Bool.or_eq_false_iff, beq_eq_false_iff_ne] at hD
            rw [List.cons_append, putL, if_neg hD.1, ih hD.2]
            rfl
        rw [List.foldl_cons, e1, ih (pre ++ [x]) (by simpa using hp)]
        simp
    exact key kvs [kv] (by simpa using hu)

theorem fold_doc (D : LDoc) : ∀ (st : IniReader.Spec.St (Option Parser)) (p : Parser),
    (∀ x ∈ D, GoodName x.1 ∧ ∀ kv ∈ x.2, GoodEntry kv) → UniqL D → (∀ x ∈ D, hasL (docOf p) (norm x.1) = false) →
    st.user = some p → Inv p →
    ∃ st' p', (D.flatMap fun x => secLines x.1 x.2).foldl (IniReader.Spec.step handlerCb) st = st' ∧
      st'.user = some p' ∧ Inv p' ∧ st'.error = st.error ∧
      docOf p' = docOf p ++ D.filter fun x => !x.2.isEmpty := by
  induction D with
  | nil => intro st p _ _ _ hu hi; exact ⟨st, p, rfl, hu, hi, rfl, by simp⟩
  | cons x D ih =>
    intro st p hg hU hdis hu hi
    obtain ⟨hgx, hgk⟩ := hg x (by simp)
    rw [List.flatMap_cons, List.foldl_append, secLines, List.foldl_cons, step_section hgx, List.foldl_append]
    obtain ⟨st1, p1, e1, hu1, hi1, _, _, he1, hd1⟩ := fold_entries x.2
      { st with lineno := st.lineno + 1, sec := x.1, prev := [] } p hgk hu hi (by simp) hgx
    rw [e1]
    simp only [List.foldl_cons, List.foldl_nil, step_blank]
    simp only [] at hd1 he1
    rw [fold_putL x.1 x.2 (hU.keys x (by simp)) _ (hdis x (by simp))] at hd1
    have hU' : UniqL D := ⟨(List.pairwise_cons.mp hU.secs).2, fun y hy => hU.keys y (by simp [hy])⟩
    obtain ⟨st2, p2, e2, hu2, hi2, he2, hd2⟩ := ih { st1 with lineno := st1.lineno + 1 } p1
      (fun y hy => hg y (by simp [hy])) hU' (by
        intro y hy
        have hne := (List.pairwise_cons.mp hU.secs).1 y hy
        have h1 := hdis y (by simp [hy])
        rw [hd1]
        split
        · exact h1
        · unfold hasL at h1 ⊢
          rw [List.any_append, h1]
          simp [hne]) hu1 hi1
    refine ⟨st2, p2, e2, hu2, hi2, by rw [he2]; exact he1, ?_⟩
    rw [hd2, hd1, List.filter_cons]
    cases x with
    | mk n kvs => cases kvs <;> simp

end Verif.IniParser
