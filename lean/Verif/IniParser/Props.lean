import Verif.IniParser.Dump
/-!
# C43, C44, C45: `ini_parser.c`

`exec`/`execAll` (`Verif.IniParser.History`) run the calls `ini_parser_put_string`,
`ini_parser_delete_by_section_key` and `ini_parser_delete_section` of a history on the model;
`Spec.run` says what the document is after them.
-/
namespace Verif.IniParser
open Spec
open StringBuilder (Alloc)

/-- The two kinds of question `ini_parser_get_string` answers (the value of a key; does a section exist) are
answered as for document `d`. -/
def Shows (p : Parser) (d : Doc) : Prop :=
  (∀ s k buf size, size ≤ buf.length → getString p (some s) (some k) (some buf) size =
    some (some (answer d s k buf size).1, (answer d s k buf size).2)) ∧
  (∀ s, getString p (some s) none none 0 =
    some (none, if s = [] then .invalidParam else if d.has (norm s) then .succeed else .notFound))

theorem Rep.shows {p : Parser} {d : Doc} (r : Rep p d) : Shows p d :=
  ⟨fun s k buf size hb => get_rep r s k buf size hb, fun s => has_rep r s⟩

/-- **C43** (and what holds of C44).  For every history of puts and deletes within the limits that never
deletes the section created last, no call has undefined behaviour, every call returns the code of the
specification, and afterwards every question is answered as for the document of the specification. -/
theorem history (ops : List Op) (h : Ok empty ops) :
    ∃ p, execAll create ops = some (p, (run empty ops).2) ∧ Shows p (run empty ops).1 := by
  obtain ⟨p, e, r⟩ := execAll_rep ops rep_create h
  exact ⟨p, e, r.shows⟩

/-- **C43**: after any such history, a value put is the value read back, under any letter case of section and
key; every other key of every section answers as before the put. -/
theorem put_then_get (ops : List Op) (h : Ok empty ops) (s k v : List Byte) (hs : s ≠ []) (hk : k ≠ [])
    (hf : s.length ≤ 63 ∧ k.length ≤ 63 ∧ v.length ≤ 255) :
    ∃ p cs p', execAll create ops = some (p, cs) ∧ putString p s (some k) (some v) .ok = some (p', .succeed) ∧
      (∀ s' k' buf size, norm s' = norm s → norm k' = norm k → v.length < size →
        size ≤ buf.length → getString p' (some s') (some k') (some buf) size =
          some (some (v ++ 0 :: buf.drop (v.length + 1)), .succeed)) ∧
      (∀ s' k' buf size, ¬ (norm s' = norm s ∧ norm k' = norm k) →
        (norm s' = norm s → (run empty ops).1.has (norm s)) → size ≤ buf.length →
        getString p' (some s') (some k') (some buf) size = getString p (some s') (some k') (some buf) size) := by
  obtain ⟨p, e, r⟩ := execAll_rep ops rep_create h
  obtain ⟨p', e', r'⟩ := exec_rep r (o := .put s k v) hf trivial
  have h0 : ¬ (s = [] ∨ k = []) := by simp [hs, hk]
  simp only [Spec.step, h0, if_false] at e' r'
  refine ⟨p, _, p', e, e', ?_, ?_⟩
  · intro s' k' buf size es ek hv hb
    have hs' : s' ≠ [] := by rintro rfl; exact hs (norm_nil_iff.mp es.symm)
    have hk' : k' ≠ [] := by rintro rfl; exact hk (norm_nil_iff.mp ek.symm)
    rw [get_rep r' s' k' buf size hb]
    have h1 : norm s' = norm s := es
    have h2 : norm k' = norm k := ek
    unfold answer
    rw [if_neg hs']
    simp only [Spec.put, h1, h2]
    simp only [BEq.rfl, Bool.true_or, Bool.not_true, Bool.false_eq_true, if_false, hk', and_self, if_true]
    rw [if_neg (by omega), if_neg (by omega)]
  · intro s' k' buf size hne hnew hb
    rw [get_rep r' s' k' buf size hb, get_rep r s' k' buf size hb]
    have hval : (Spec.put (run empty ops).1 s k v).val (norm s') (norm k') = (run empty ops).1.val (norm s') (norm k') := by
      simp only [Spec.put]
      rw [if_neg]
      exact hne
    have hhas : (Spec.put (run empty ops).1 s k v).has (norm s') = (run empty ops).1.has (norm s') := by
      simp only [Spec.put]
      by_cases he : norm s' = norm s
      · rw [he, hnew he]; simp
      · rw [beq_eq_false_iff_ne.mpr he, Bool.false_or]
    unfold answer
    rw [hval, hhas]

/-- **C43**, when memory runs out: whichever allocations fail, a put that reports success did what it does
with memory available, and one that reports failure leaves every value of every key as it was. -/
theorem put_out_of_memory (ops : List Op) (h : Ok empty ops) (s k v : List Byte) (hs : s.length ≤ 63) (a : Allocs) :
    ∃ p cs, execAll create ops = some (p, cs) ∧
      ∀ p' c, putString p s (some k) (some v) a = some (p', c) →
        (c = .succeed → putString p s (some k) (some v) .ok = some (p', .succeed)) ∧
        (c ≠ .succeed → ∃ d', Shows p' d' ∧ ∀ n k', d'.val n k' = (run empty ops).1.val n k') := by
  obtain ⟨p, e, r⟩ := execAll_rep ops rep_create h
  refine ⟨p, _, e, ?_⟩
  intro p' c hp
  refine ⟨?_, ?_⟩
  · rintro rfl; exact put_succeed_ok hp
  · intro hc
    obtain ⟨hi, hn, hv⟩ := put_fail r hs hp hc
    refine ⟨{ has := hasL (docOf p'), val := valL (docOf p'), recent := recentOf p' },
      Rep.shows ⟨hi, fun _ => rfl, fun _ _ => rfl, rfl, hn⟩, ?_⟩
    intro n k'
    rw [r.val]; exact hv n k'

/-! ### C44 -/

/-- **C44**, partial: deleting a key or a section removes exactly it and later calls behave as if it had
never been there (`Spec.delKey`, `Spec.delSec`), for every history that does not delete the section
created last.  For that section the claim is false: `delete_recent_section`. -/
theorem delete_precise_partial (ops : List Op) (h : Ok empty ops) (o : Op) (hf : Fits o)
    (hk : KeepsRecent (run empty ops).1 o) :
    ∃ p cs p', execAll create ops = some (p, cs) ∧ exec p o = some (p', (step (run empty ops).1 o).2) ∧
      Shows p' (step (run empty ops).1 o).1 ∧
      ∀ ops', Ok (step (run empty ops).1 o).1 ops' →
        ∃ p'', execAll p' ops' = some (p'', (run (step (run empty ops).1 o).1 ops').2) ∧
          Shows p'' (run (step (run empty ops).1 o).1 ops').1 := by
  obtain ⟨p, e, r⟩ := execAll_rep ops rep_create h
  obtain ⟨p', e', r'⟩ := exec_rep r hf hk
  refine ⟨p, _, p', e, e', r'.shows, ?_⟩
  intro ops' h'
  obtain ⟨p'', e'', r''⟩ := execAll_rep ops' r' h'
  exact ⟨p'', e'', r''.shows⟩

/-- **C44 is false** for the section created last: after every history within the limits, deleting that
section succeeds, and then *every* further put, get or delete naming a section reads the freed section
object (`none`: undefined behaviour). -/
theorem delete_recent_section (ops : List Op) (h : Ok empty ops) (s : List Byte) (hs : s ≠ [])
    (hr : (run empty ops).1.recent = some (norm s)) :
    ∃ p cs p', execAll create ops = some (p, cs) ∧ deleteSection p s = some (p', .succeed) ∧
      ∀ s', s' ≠ [] → (∀ k v a, k ≠ [] → putString p' s' (some k) v a = none) ∧
        (∀ k buf size, getString p' (some s') k buf size = none) ∧ (∀ k, deleteKey p' s' k = none) ∧
        deleteSection p' s' = none := by
  obtain ⟨p, e, r⟩ := execAll_rep ops rep_create h
  obtain ⟨p', e', hc⟩ := delete_recent r.inv hs (by rw [← r.recent, hr])
  refine ⟨p, _, p', e, e', ?_⟩
  intro s' hs'
  have hd := search_dangling hc hs'
  have hl : ¬ s'.length < 1 := by simpa using hs'
  refine ⟨?_, ?_, ?_, ?_⟩
  · intro k v a hk
    unfold putString searchOrAdd
    rw [hd]
    simp [hk, hs']
  · intro k buf size
    unfold getString
    simp [hs', hd]
  · intro k; unfold deleteKey; rw [hd]
  · unfold deleteSection; rw [hd]; rfl

/-! ### C45 -/

/-- Names and values free of syntax characters and within the limits of the reader. -/
def Readable : Op → Prop
  | .put s k v => (s ≠ [] → GoodName s) ∧ (k ≠ [] → GoodEntry ⟨k, v⟩)
  | _ => True

/-- every section and entry can be written and read back -/
def GoodDoc (D : LDoc) : Prop := ∀ x ∈ D, GoodName x.1 ∧ ∀ kv ∈ x.2, GoodEntry kv

theorem goodEntry_value {kv : KV} {k v : List Byte} (h : GoodEntry kv) (h' : GoodEntry ⟨k, v⟩)
    (e : norm kv.key = norm k) : GoodEntry { kv with value := v } := by
  obtain ⟨a1, a2, _, a4, a5, a6, a7, _, _, _, _⟩ := h
  obtain ⟨_, _, b3, _, _, _, _, b8, b9, b10, b11⟩ := h'
  have hl : kv.key.length = k.length := by
    have := congrArg List.length e
    simpa [norm] using this
  exact ⟨a1, a2, by simp only [] at b3 ⊢; omega, a4, a5, a6, a7, b8, b9, b10, b11⟩

theorem good_putK {k v : List Byte} (h' : GoodEntry ⟨k, v⟩) (kvs : List KV) (h : ∀ kv ∈ kvs, GoodEntry kv) :
    ∀ kv ∈ putK k v kvs, GoodEntry kv := by
  induction kvs with
  | nil => simpa [putK] using h'
  | cons x kvs ih =>
    unfold putK
    have hx := h x (by simp)
    have ht : ∀ kv ∈ kvs, GoodEntry kv := fun kv hkv => h kv (by simp [hkv])
    split
    · rename_i e
      intro kv hkv
      rcases List.mem_cons.mp hkv with rfl | hkv
      · exact goodEntry_value hx h' e
      · exact ht kv hkv
    · intro kv hkv
      rcases List.mem_cons.mp hkv with rfl | hkv
      · exact hx
      · exact ih ht kv hkv

theorem good_putL {s k v : List Byte} (hs : GoodName s) (h' : GoodEntry ⟨k, v⟩) (D : LDoc) (h : GoodDoc D) :
    GoodDoc (putL s k v D) := by
  induction D with
  | nil =>
    intro x hx
    simp only [putL, List.mem_singleton] at hx
    subst hx
    exact ⟨hs, by simpa using h'⟩
  | cons y D ih =>
    have hy := h y (by simp)
    have ht : GoodDoc D := fun x hx => h x (by simp [hx])
    unfold putL
    split
    · intro x hx
      rcases List.mem_cons.mp hx with rfl | hx
      · exact ⟨hy.1, good_putK h' _ hy.2⟩
      · exact ht x hx
    · intro x hx
      rcases List.mem_cons.mp hx with rfl | hx
      · exact hy
      · exact ih ht x hx

theorem delK_subset {k : List Byte} {kvs : List KV} {kv : KV} (h : kv ∈ delK k kvs) : kv ∈ kvs := by
  induction kvs with
  | nil => simp [delK] at h
  | cons x kvs ih =>
    unfold delK at h
    split at h
    · simp [h]
    · rcases List.mem_cons.mp h with rfl | h
      · simp
      · simp [ih h]

theorem delL_subset {s : List Byte} {D : LDoc} {x : List Byte × List KV} (h : x ∈ delL s D) : x ∈ D := by
  induction D with
  | nil => simp [delL] at h
  | cons y D ih =>
    unfold delL at h
    split at h
    · simp [h]
    · rcases List.mem_cons.mp h with rfl | h
      · simp
      · simp [ih h]

theorem exec_good {p p' : Parser} {d : Doc} {o : Op} {c : Code} (r : Rep p d) (hf : Fits o) (hk : KeepsRecent d o)
    (hg : Readable o) (hD : GoodDoc (docOf p)) (e : exec p o = some (p', c)) : GoodDoc (docOf p') := by
  cases o with
  | put s k v =>
    by_cases h0 : s = [] ∨ k = []
    · simp only [exec] at e
      rw [put_invalid p _ _ h0] at e
      cases e; exact hD
    · have hs : s ≠ [] := fun e => h0 (.inl e)
      have hk0 : k ≠ [] := fun e => h0 (.inr e)
      obtain ⟨h1, h2, h3⟩ := hf
      obtain ⟨p1, e1, hi, hd, hr⟩ := put_ok r.inv (some v) hs hk0 h1 h2
      rw [Option.getD_some, List.take_of_length_le h3] at hd
      simp only [exec] at e
      rw [e1] at e
      cases e
      rw [hd]
      exact good_putL (hg.1 hs) (hg.2 hk0) _ hD
  | delKey s k =>
    simp only [exec] at e
    by_cases hs : s = []
    · subst hs
      simp [deleteKey, search_nil] at e
      rw [← e.1]; exact hD
    · obtain ⟨p1, e1, hi, hr, hd⟩ := delKey_ok r.inv hs k
      rw [e1] at e
      simp only [Option.some.injEq, Prod.mk.injEq] at e
      rw [← e.1, hd]
      split
      · intro x hx
        rcases mem_updL hx with hx | ⟨y, hy, rfl⟩
        · exact hD x hx
        · exact ⟨(hD y hy).1, fun kv hkv => (hD y hy).2 kv (delK_subset hkv)⟩
      · exact hD
  | delSec s =>
    simp only [exec] at e
    by_cases hs : s = []
    · subst hs
      simp [deleteSection, search_nil] at e
      rw [← e.1]; exact hD
    · obtain ⟨p1, e1, hi, hr, hd⟩ := delSec_ok r.inv hs (by rw [← r.recent]; exact hk)
      rw [e1] at e
      simp only [Option.some.injEq, Prod.mk.injEq] at e
      rw [← e.1, hd]
      split
      · exact fun x hx => hD x (delL_subset hx)
      · exact hD

theorem execAll_good (ops : List Op) : ∀ {p p' : Parser} {d : Doc} {cs : List Code}, Rep p d → Ok d ops →
    (∀ o ∈ ops, Readable o) → GoodDoc (docOf p) → execAll p ops = some (p', cs) → GoodDoc (docOf p') := by
  induction ops with
  | nil => intro p p' d cs r _ _ hD e; simp [execAll] at e; rw [← e.1]; exact hD
  | cons o ops ih =>
    intro p p' d cs r hok hg hD e
    obtain ⟨p1, e1, r1⟩ := exec_rep r hok.1 hok.2.1
    have hD1 := exec_good r hok.1 hok.2.1 (hg o (by simp)) hD e1
    simp only [execAll, e1, Option.bind_eq_bind, Option.bind_some] at e
    cases e2 : execAll p1 ops with
    | none => rw [e2] at e; simp at e
    | some q =>
      rw [e2] at e
      simp at e
      rw [← e.1]
      exact ih r1 hok.2.2 (fun o ho => hg o (by simp [ho])) hD1 (by rw [e2])

/-- What a call adds at most to the text of the document: `[section]\r\n`, `key = value\r\n`, `\r\n`. -/
def cost : Op → Nat
  | .put s k v => s.length + 6 + (k.length + v.length + 5)
  | _ => 0

theorem setKvs_pred (p : Parser) (a : Nat) (f : List KV → List KV) : (setKvs p a f).pred = p.pred := rfl

theorem searchOrAdd_pred {p p' : Parser} {s : List Byte} {a : Allocs} {x : Option Nat}
    (e : searchOrAdd p s a = some (p', x)) : p'.pred ≤ p.pred + (s.length + 6) := by
  unfold searchOrAdd at e
  cases h : search p s with
  | none => rw [h] at e; simp at e
  | some r =>
    rw [h] at e
    simp only [Option.map_some, Option.some.injEq] at e
    cases r with
    | some y => simp only [Prod.mk.injEq] at e; rw [← e.1]; omega
    | none =>
      simp only [] at e
      split at e
      · simp only [Prod.mk.injEq] at e; rw [← e.1]; omega
      · unfold addSection at e
        split at e
        · simp only [Prod.mk.injEq] at e; rw [← e.1]; omega
        · simp only [Prod.mk.injEq] at e; rw [← e.1]; exact Nat.le_refl _

theorem exec_pred {p p' : Parser} {o : Op} {c : Code} (e : exec p o = some (p', c)) : p'.pred ≤ p.pred + cost o := by
  cases o with
  | put s k v =>
    simp only [exec, putString] at e
    split at e
    · simp only [Option.some.injEq, Prod.mk.injEq] at e; rw [← e.1]; exact Nat.le_add_right _ _
    · split at e
      · simp at e
      · rename_i q h
        simp only [Option.some.injEq, Prod.mk.injEq] at e; rw [← e.1]
        have := searchOrAdd_pred h
        simp only [cost]; omega
      · rename_i q x h
        have hq := searchOrAdd_pred h
        refine Nat.le_trans ?_ (show q.pred ≤ _ by simp only [cost]; omega)
        cases hk : kvsAt q x with
        | none => rw [hk] at e; simp at e
        | some kvs =>
          rw [hk] at e
          simp only [Option.map_some, Option.some.injEq] at e
          split at e
          · simp only [Prod.mk.injEq] at e; rw [← e.1, setKvs_pred]; exact Nat.le_refl _
          · simp only [Allocs.ok, Bool.not_true, Bool.false_eq_true, if_false, if_true, Prod.mk.injEq] at e
            rw [← e.1, setKvs_pred]; exact Nat.le_refl _
  | delKey s k =>
    simp only [exec, deleteKey] at e
    split at e
    · simp at e
    · simp only [Option.some.injEq, Prod.mk.injEq] at e; rw [← e.1]; exact Nat.le_add_right _ _
    · rename_i x h
      cases hk : kvsAt p x with
      | none => rw [hk] at e; simp at e
      | some kvs =>
        rw [hk] at e
        simp only [Option.map_some, Option.some.injEq] at e
        split at e <;> (simp only [Prod.mk.injEq] at e; rw [← e.1]; exact Nat.le_add_right _ _)
  | delSec s =>
    simp only [exec, deleteSection] at e
    cases h : search p s with
    | none => rw [h] at e; simp at e
    | some r =>
      rw [h] at e
      simp only [Option.map_some, Option.some.injEq] at e
      cases r with
      | none => simp only [Prod.mk.injEq] at e; rw [← e.1]; exact Nat.le_add_right _ _
      | some y => simp only [Prod.mk.injEq] at e; rw [← e.1]; exact Nat.le_add_right _ _

theorem execAll_pred (ops : List Op) : ∀ {p p' : Parser} {cs : List Code}, execAll p ops = some (p', cs) →
    p'.pred ≤ p.pred + (ops.map cost).sum := by
  induction ops with
  | nil => intro p p' cs e; simp [execAll] at e; rw [← e.1]; simp
  | cons o ops ih =>
    intro p p' cs e
    simp only [execAll, Option.bind_eq_bind] at e
    cases e1 : exec p o with
    | none => rw [e1] at e; simp at e
    | some r =>
      rw [e1] at e
      simp only [Option.bind_some] at e
      cases e2 : execAll r.1 ops with
      | none => rw [e2] at e; simp at e
      | some q =>
        rw [e2] at e
        simp at e
        rw [← e.1]
        have h1 := exec_pred (p := p) (p' := r.1) (c := r.2) (by rw [e1])
        have h2 := ih (p := r.1) (p' := q.1) (cs := q.2) (by rw [e2])
        simp only [List.map_cons, List.sum_cons]
        omega

theorem render_cons (x : List Byte × List KV) (D : LDoc) :
    (render (x :: D)).length = x.1.length + (x.2.flatMap entryText).length + 6 + (render D).length := by
  simp [render, sectionText]; omega

theorem entryText_length (kv : KV) : (entryText kv).length = kv.key.length + kv.value.length + 5 := by
  simp [entryText]; omega

theorem putK_len (k v : List Byte) (kvs : List KV) :
    ((putK k v kvs).flatMap entryText).length ≤ (kvs.flatMap entryText).length + (k.length + v.length + 5) := by
  induction kvs with
  | nil => simp [putK, entryText_length]
  | cons x kvs ih =>
    unfold putK
    split
    · rename_i e
      have hl : x.key.length = k.length := by
        have := congrArg List.length e
        simpa [norm] using this
      rw [List.flatMap_cons, List.flatMap_cons, List.length_append, List.length_append, entryText_length,
        entryText_length]
      simp only []
      omega
    · rw [List.flatMap_cons, List.flatMap_cons, List.length_append, List.length_append]; omega

theorem putL_len (s k v : List Byte) (D : LDoc) :
    (render (putL s k v D)).length ≤ (render D).length + (s.length + 6 + (k.length + v.length + 5)) := by
  induction D with
  | nil =>
    unfold putL
    rw [render_cons]
    simp [entryText_length, render]; omega
  | cons x D ih =>
    unfold putL
    split
    · rw [render_cons, render_cons]
      have := putK_len k v x.2
      simp only []
      omega
    · rw [render_cons, render_cons]; omega

theorem delK_len (k : List Byte) (kvs : List KV) :
    ((delK k kvs).flatMap entryText).length ≤ (kvs.flatMap entryText).length := by
  induction kvs with
  | nil => simp [delK]
  | cons x kvs ih =>
    unfold delK
    split
    · rw [List.flatMap_cons, List.length_append]; omega
    · rw [List.flatMap_cons, List.flatMap_cons, List.length_append, List.length_append]; omega

theorem updL_len (s k : List Byte) (D : LDoc) : (render (updL s (delK k) D)).length ≤ (render D).length := by
  induction D with
  | nil => simp [updL]
  | cons x D ih =>
    unfold updL
    split
    · rw [render_cons, render_cons]
      have := delK_len k x.2
      simp only []
      omega
    · rw [render_cons, render_cons]; omega

theorem delL_len (s : List Byte) (D : LDoc) : (render (delL s D)).length ≤ (render D).length := by
  induction D with
  | nil => simp [delL]
  | cons x D ih =>
    unfold delL
    split
    · rw [render_cons]; omega
    · rw [render_cons, render_cons]; omega

theorem exec_len {p p' : Parser} {d : Doc} {o : Op} {c : Code} (r : Rep p d) (hf : Fits o) (hk : KeepsRecent d o)
    (e : exec p o = some (p', c)) : (render (docOf p')).length ≤ (render (docOf p)).length + cost o := by
  cases o with
  | put s k v =>
    by_cases h0 : s = [] ∨ k = []
    · simp only [exec] at e
      rw [put_invalid p _ _ h0] at e
      cases e; exact Nat.le_add_right _ _
    · have hs : s ≠ [] := fun e => h0 (.inl e)
      have hk0 : k ≠ [] := fun e => h0 (.inr e)
      obtain ⟨h1, h2, h3⟩ := hf
      obtain ⟨p1, e1, hi, hd, hr⟩ := put_ok r.inv (some v) hs hk0 h1 h2
      rw [Option.getD_some, List.take_of_length_le h3] at hd
      simp only [exec] at e
      rw [e1] at e
      cases e
      rw [hd]
      exact putL_len s k v _
  | delKey s k =>
    simp only [exec] at e
    by_cases hs : s = []
    · subst hs
      simp [deleteKey, search_nil] at e
      rw [← e.1]; exact Nat.le_add_right _ _
    · obtain ⟨p1, e1, hi, hr, hd⟩ := delKey_ok r.inv hs k
      rw [e1] at e
      simp only [Option.some.injEq, Prod.mk.injEq] at e
      rw [← e.1, hd]
      split
      · exact updL_len s k _
      · exact Nat.le_add_right _ _
  | delSec s =>
    simp only [exec] at e
    by_cases hs : s = []
    · subst hs
      simp [deleteSection, search_nil] at e
      rw [← e.1]; exact Nat.le_add_right _ _
    · obtain ⟨p1, e1, hi, hr, hd⟩ := delSec_ok r.inv hs (by rw [← r.recent]; exact hk)
      rw [e1] at e
      simp only [Option.some.injEq, Prod.mk.injEq] at e
      rw [← e.1, hd]
      split
      · exact delL_len s _
      · exact Nat.le_add_right _ _

theorem execAll_len (ops : List Op) : ∀ {p p' : Parser} {d : Doc} {cs : List Code}, Rep p d → Ok d ops →
    execAll p ops = some (p', cs) → (render (docOf p')).length ≤ (render (docOf p)).length + (ops.map cost).sum := by
  induction ops with
  | nil => intro p p' d cs r _ e; simp [execAll] at e; rw [← e.1]; exact Nat.le_add_right _ _
  | cons o ops ih =>
    intro p p' d cs r hok e
    obtain ⟨p1, e1, r1⟩ := exec_rep r hok.1 hok.2.1
    have h1 := exec_len r hok.1 hok.2.1 e1
    simp only [execAll, e1, Option.bind_eq_bind, Option.bind_some] at e
    cases e2 : execAll p1 ops with
    | none => rw [e2] at e; simp at e
    | some q =>
      rw [e2] at e
      simp at e
      rw [← e.1]
      have h2 := ih (p' := q.1) (cs := q.2) r1 hok.2.2 (by rw [e2])
      simp only [List.map_cons, List.sum_cons]
      omega

theorem goodDoc_small {D : LDoc} (h : GoodDoc D) : Small D := by
  intro x hx
  obtain ⟨hn, hk⟩ := h x hx
  refine ⟨by have := hn.2.1; omega, fun kv hkv => ?_⟩
  have := hk kv hkv
  exact ⟨this.2.1, by have := this.2.2.1; omega⟩

theorem zero_notin_render {D : LDoc} (h : GoodDoc D) : (0 : Byte) ∉ render D := by
  intro h0
  unfold render sectionText at h0
  simp only [List.mem_flatMap, List.mem_append, entryText] at h0
  obtain ⟨x, hx, h0⟩ := h0
  obtain ⟨hn, hk⟩ := h x hx
  rcases h0 with (((h0 | h0) | h0) | ⟨kv, hkv, h0⟩) | h0
  · revert h0; decide
  · exact hn.2.2.1 h0
  · revert h0; decide
  · obtain ⟨_, _, _, ⟨hk0, _⟩, _, _, _, ⟨hv0, _⟩, _⟩ := hk kv hkv
    rcases h0 with ((h0 | h0) | h0) | h0
    · exact hk0 h0
    · revert h0; decide
    · exact hv0 h0
    · revert h0; decide
  · revert h0; decide

theorem filter_val (D : LDoc) (h : UniqL D) (n k : List Byte) :
    valL (D.filter fun x => !x.2.isEmpty) n k = valL D n k := by
  induction D with
  | nil => rfl
  | cons x D ih =>
    have hU' : UniqL D := ⟨(List.pairwise_cons.mp h.secs).2, fun y hy => h.keys y (by simp [hy])⟩
    rw [valL_cons, List.filter_cons]
    cases he : x.2.isEmpty
    · simp only [Bool.not_false, if_true]
      rw [valL_cons, ih hU']
    · simp only [Bool.not_true, Bool.false_eq_true, if_false]
      rw [ih hU']
      split
      · rename_i hn
        have hx2 : x.2 = [] := by simpa using he
        rw [hx2]
        have : hasL D n = false := by
          apply hasL_false
          intro y hy e
          have := (List.pairwise_cons.mp h.secs).1 y hy
          exact this (hn.trans e.symm)
        rw [valL_none_of_not_has this]
        rfl
      · rfl

theorem foreach_docOf {σ : Type} (f : σ → List Byte → List Byte → List Byte → σ × Bool) (u : σ) (p : Parser) :
    foreach f u p = (docOf p).foldl (fun u x => if x.1 = [] then u else foreachKvs f x.1 u x.2) u := by
  unfold foreach docOf
  rw [List.foldl_map]

theorem foreach_filter {σ : Type} (f : σ → List Byte → List Byte → List Byte → σ × Bool) (D : LDoc) : ∀ (u : σ),
    (D.filter fun x => !x.2.isEmpty).foldl (fun u x => if x.1 = [] then u else foreachKvs f x.1 u x.2) u =
      D.foldl (fun u x => if x.1 = [] then u else foreachKvs f x.1 u x.2) u := by
  induction D with
  | nil => intro u; rfl
  | cons x D ih =>
    intro u
    rw [List.filter_cons, List.foldl_cons]
    cases he : x.2.isEmpty
    · simp only [Bool.not_false, if_true]
      rw [List.foldl_cons, ih]
    · simp only [Bool.not_true, Bool.false_eq_true, if_false]
      have hx2 : x.2 = [] := by simpa using he
      rw [ih, hx2]
      congr 1
      split <;> rfl

theorem hasL_filter (D : LDoc) (n : List Byte) :
    hasL (D.filter fun x => !x.2.isEmpty) n = true ↔ ∃ x ∈ D, norm x.1 = n ∧ x.2 ≠ [] := by
  unfold hasL
  rw [List.any_eq_true]
  constructor
  · rintro ⟨x, hx, e⟩
    rw [List.mem_filter] at hx
    exact ⟨x, hx.1, by simpa using e, by simpa using hx.2⟩
  · rintro ⟨x, hx, e, h⟩
    exact ⟨x, List.mem_filter.mpr ⟨hx, by simpa using h⟩, by simpa using e⟩

theorem find_uniq {D : LDoc} (h : D.Pairwise fun a b => norm a.1 ≠ norm b.1) {x : List Byte × List KV} (hx : x ∈ D) :
    (D.find? fun y => norm y.1 == norm x.1) = some x := by
  induction D with
  | nil => simp at hx
  | cons y D ih =>
    rw [List.pairwise_cons] at h
    rcases List.mem_cons.mp hx with rfl | hx
    · simp
    · rw [List.find?_cons_of_neg (by simpa using h.1 x hx), ih h.2 hx]

theorem parse_render {p : Parser} (hi : Inv p) (hg : GoodDoc (docOf p)) (after garbage : Mem)
    (hgl : garbage.length = 200) :
    ∃ p', parseStr (render (docOf p) ++ 0 :: after) garbage = some (some p') ∧ Inv p' ∧
      docOf p' = (docOf p).filter fun x => !x.2.isEmpty := by
  have hr := IniReader.parseString_spec handlerCb (render (docOf p)) after garbage (some create) (zero_notin_render hg) hgl
  obtain ⟨st', p', e, hu, hi', he, hd⟩ := fold_doc (docOf p)
    { sec := [], prev := [], lineno := 0, error := 0, user := some create } create hg hi.uniq
    (fun _ _ => rfl) rfl inv_create
  refine ⟨p', ?_, hi', by rw [hd]; rfl⟩
  unfold parseStr
  rw [hr]
  unfold IniReader.Spec.run
  rw [lines_render hg, e]
  simp only [hu]
  rw [he]
  rfl

/-- **C45**: whatever document was built (by a history within the limits whose names and values are free of
syntax characters), `ini_parser_dump_to_mem` (memory for the string builder being available) reports
success exactly if the document has a section and the buffer is large enough, writes the text of
the document inside the buffer, and `ini_parser_parse_str` on that buffer yields a document with the same
value for every key of every section, whose sections are those that had a key, and whose
`ini_parser_foreach` makes the same calls in the same order. -/
theorem dump_parse_round_trip (ops : List Op) (hok : Ok empty ops) (hg : ∀ o ∈ ops, Readable o)
    (mem : Mem) (size : Nat) (hm : size ≤ mem.length) (hm2 : (ops.map cost).sum + 65 < 2 ^ 62)
    (j : Nat → Byte) (al : Nat → Alloc) (hal : ∀ i, (al i).isSome) (garbage : Mem) (hgl : garbage.length = 200) :
    ∃ p text, execAll create ops = some (p, (run empty ops).2) ∧
      (text = [] ↔ ∀ s, (run empty ops).1.has s = false) ∧
      (text ≠ [] → (ops.map cost).sum + 64 ≤ size →
        dumpToMem p mem size true (some j) al =
          some (text ++ 0 :: mem.drop (text.length + 1), text.length + 1, .succeed)) ∧
      (∀ mem' size', dumpToMem p mem size true (some j) al = some (mem', size', .succeed) →
        mem' = text ++ 0 :: mem.drop (text.length + 1) ∧ size' = text.length + 1 ∧ size' ≤ size ∧
        ∃ p' d', parseStr mem' garbage = some (some p') ∧ Shows p' d' ∧
          (∀ n k, d'.val n k = (run empty ops).1.val n k) ∧
          (∀ n, d'.has n = true ↔ ∃ k v, (run empty ops).1.val n k = some v) ∧
          ∀ (σ : Type) (f : σ → List Byte → List Byte → List Byte → σ × Bool) (u : σ),
            foreach f u p' = foreach f u p) ∧
      (∀ mem' size' c, dumpToMem p mem size true (some j) al = some (mem', size', c) → c ≠ .succeed →
        mem' = mem ∧ size' = size) := by
  obtain ⟨p, e, r⟩ := execAll_rep ops rep_create hok
  have hgd : GoodDoc (docOf p) := execAll_good ops rep_create hok hg (by simp [GoodDoc, docOf, create]) e
  have hpred := execAll_pred ops e
  have hz : create.pred = 0 := rfl
  rw [hz, Nat.zero_add] at hpred
  have hlen := execAll_len ops rep_create hok e
  have hz' : (render (docOf create)).length = 0 := rfl
  rw [hz', Nat.zero_add] at hlen
  have hnil : render (docOf p) = [] ↔ p.secs = [] := by
    unfold docOf
    cases p.secs with
    | nil => simp [render]
    | cons x l => simp [render, sectionText]
  obtain ⟨p', ep, hi', hd'⟩ := parse_render r.inv hgd (mem.drop ((render (docOf p)).length + 1)) garbage hgl
  refine ⟨p, render (docOf p), e, ?_, ?_, ?_, ?_⟩
  · rw [hnil]
    constructor
    · intro h s
      rw [r.has]; unfold docOf; rw [h]; rfl
    · intro h
      cases hs : p.secs with
      | nil => rfl
      | cons x l =>
        have := h (norm x.name)
        rw [r.has] at this
        unfold docOf hasL at this
        rw [hs] at this
        simp at this
  · intro h1 h2
    rw [dumpToMem_eq (goodDoc_small hgd) (zero_notin_render hgd) ⟨by omega, by omega⟩ j hal mem size hm,
      if_neg (by omega), if_neg (fun h => h1 (hnil.mpr h)), if_neg (by omega)]
  · intro mem' size' ed
    have hres : mem' = render (docOf p) ++ 0 :: mem.drop ((render (docOf p)).length + 1) ∧
        size' = (render (docOf p)).length + 1 ∧ size' ≤ size := by
      by_cases hp : size < p.pred + 64
      · unfold dumpToMem at ed
        rw [if_pos hp] at ed
        simp at ed
      · rw [dumpToMem_eq (goodDoc_small hgd) (zero_notin_render hgd) ⟨by omega, by omega⟩ j hal mem size hm,
          if_neg hp] at ed
        split at ed
        · simp at ed
        · split at ed
          · simp at ed
          · simp only [Option.some.injEq, Prod.mk.injEq, and_true] at ed
            refine ⟨ed.1.symm, ed.2.symm, by omega⟩
    obtain ⟨h1, h2, h3⟩ := hres
    refine ⟨h1, h2, h3, p', { has := hasL (docOf p'), val := valL (docOf p'), recent := recentOf p' }, ?_, ?_, ?_, ?_, ?_⟩
    · rw [h1]; exact ep
    · exact Rep.shows ⟨hi', fun _ => rfl, fun _ _ => rfl, rfl, fun x hx => by
        rw [hd'] at hx; exact r.names x (List.mem_filter.mp hx).1⟩
    · intro n k
      rw [r.val]
      simp only [hd']
      exact filter_val _ r.inv.uniq n k
    · intro n
      simp only [hd']
      rw [hasL_filter]
      constructor
      · rintro ⟨x, hx, rfl, hne⟩
        cases hx2 : x.2 with
        | nil => exact absurd hx2 hne
        | cons kv kvs =>
          refine ⟨norm kv.key, kv.value, ?_⟩
          rw [r.val]
          unfold valL
          have : (docOf p).find? (fun y => norm y.1 == norm x.1) = some x := find_uniq r.inv.uniq.secs hx
          rw [this, Option.bind_some, hx2]
          simp [valK]
      · rintro ⟨k, v, hv⟩
        rw [r.val] at hv
        unfold valL at hv
        cases hf : (docOf p).find? fun x => norm x.1 == n with
        | none => rw [hf] at hv; simp at hv
        | some x =>
          rw [hf] at hv
          refine ⟨x, List.mem_of_find?_eq_some hf, by simpa using List.find?_some hf, ?_⟩
          intro h2
          simp [valK, h2] at hv
    · intro σ f u
      rw [foreach_docOf, foreach_docOf, hd', foreach_filter]
  · intro mem' size' c ed hc
    unfold dumpToMem at ed
    split at ed
    · simp at ed; exact ⟨ed.1.symm, ed.2.1.symm⟩
    · split at ed
      · simp at ed
      · simp at ed; exact ⟨ed.1.symm, ed.2.1.symm⟩
      · split at ed
        · simp at ed
        · split at ed
          · simp at ed; exact ⟨ed.1.symm, ed.2.1.symm⟩
          · split at ed
            · simp at ed; exact ⟨ed.1.symm, ed.2.1.symm⟩
            · simp only [Option.map_eq_some_iff, Prod.mk.injEq] at ed
              obtain ⟨_, _, _, _, h⟩ := ed
              exact absurd h.symm hc

/-! ### Examples -/

/-- `put("Ab", "k", "v 1"); put("c", "x", ""); put("aB", "K", "w"); put("c", "y", "z"); delete("C", "Y")` -/
def exOps : List Op :=
  [.put [65, 98] [107] [118, 32, 49], .put [99] [120] [], .put [97, 66] [75] [119], .put [99] [121] [122],
    .delKey [67] [89]]

theorem exOps_ok : Ok empty exOps := by
  simp [exOps, Ok, Fits, KeepsRecent]

example : (run empty exOps).2 = [.succeed, .succeed, .succeed, .succeed, .succeed] := by decide +kernel
example : (run empty exOps).1.val (norm [65, 66]) (norm [75]) = some [119] := by decide +kernel
example : (run empty exOps).1.val [99] [121] = none := by decide +kernel
/-- hypotheses of `delete_precise_partial` and of `delete_recent_section` are met after `exOps`: the section `c` was
created last, so `Ab` may be deleted and `c` may not. -/
example : KeepsRecent (run empty exOps).1 (.delSec [65, 98]) ∧ (run empty exOps).1.recent = some (norm [67]) := by
  constructor
  · show (run empty exOps).1.recent ≠ some (norm [65, 98])
    decide +kernel
  · decide +kernel

example : (execAll create exOps).map (fun r => getString r.1 (some [65, 66]) (some [107]) (some [9, 9, 9, 9]) 4) =
    some (some (some [119, 0, 9, 9], .succeed)) := by decide +kernel

/-- delete, then use: undefined behaviour -/
example : execAll create (exOps ++ [.delSec [99], .delKey [65] [65]]) = none := by decide +kernel
/-- deleting another section is fine -/
example : (execAll create (exOps ++ [.delSec [65, 66], .delKey [65] [65]])).map (·.2) =
    some [.succeed, .succeed, .succeed, .succeed, .succeed, .succeed, .notFound] := by decide +kernel

theorem no59 {s : List Byte} (h : (59 : Byte) ∉ s) : NoComment s := by
  intro a x b e; subst e; simp at h

theorem exOps_readable : ∀ o ∈ exOps, Readable o := by
  intro o ho
  simp only [exOps, List.mem_cons, List.not_mem_nil, or_false] at ho
  rcases ho with rfl | rfl | rfl | rfl | rfl
  all_goals first
    | trivial
    | exact ⟨fun _ => ⟨by decide, by decide, by decide, by decide, by decide, no59 (by decide)⟩,
        fun _ => ⟨by decide, by decide, by decide, by decide, by decide, by unfold Trimmed; decide, no59 (by decide), by decide,
          by decide, by unfold Trimmed; decide, no59 (by decide)⟩⟩

/-- The text dumped for `exOps` -/
example : (execAll create exOps).bind (fun r => (dumpToMem r.1 (List.replicate 120 7) 120 true (some fun _ => 5)
      fun _ => some fun _ => 6).map fun q => (q.1.take 30, q.2.1, q.2.2)) =
    some ([91, 65, 98, 93, 13, 10, 107, 32, 61, 32, 119, 13, 10, 13, 10, 91, 99, 93, 13, 10, 120, 32, 61, 32, 13, 10, 13, 10, 0, 7],
      29, .succeed) := by decide +kernel

example := dump_parse_round_trip exOps exOps_ok exOps_readable (List.replicate 200 7) 200 (by rw [List.length_replicate]; decide)
  (by decide) (fun _ => 5) (fun _ => some fun _ => 6) (fun _ => rfl) (List.replicate 200 85) List.length_replicate

end Verif.IniParser
