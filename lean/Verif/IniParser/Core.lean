import Verif.IniParser.Lemmas
/-! # The parser's operations act on its contents as on a list of sections -/
namespace Verif.IniParser
open Spec

/-- invariant of the parser -/
structure Inv (p : Parser) : Prop where
  addrs : p.secs.Pairwise fun a b => a.addr ≠ b.addr
  fresh : ∀ s ∈ p.secs, s.addr < p.next
  live : ∀ a, p.last = some a → ∃ s ∈ p.secs, s.addr = a
  uniq : UniqL (docOf p)

theorem inv_create : Inv create := ⟨by simp [create], by simp [create], by simp [create],
  ⟨by simp [create, docOf], by simp [create, docOf]⟩⟩

theorem find_addr {secs : List Sec} (h : secs.Pairwise fun a b => a.addr ≠ b.addr) {t : Sec} (ht : t ∈ secs) :
    (secs.find? fun s => s.addr == t.addr) = some t := by
  induction secs with
  | nil => simp at ht
  | cons x secs ih =>
    rw [List.pairwise_cons] at h
    rw [List.find?_cons]
    rcases List.mem_cons.mp ht with e | ht
    · subst e; simp
    · have : ¬ x.addr = t.addr := h.1 t ht
      rw [beq_eq_false_iff_ne.mpr this]
      exact ih h.2 ht

theorem find_name {secs : List Sec} (h : secs.Pairwise fun a b => norm a.name ≠ norm b.name) {t : Sec}
    (ht : t ∈ secs) {s : List Byte} (e : norm s = norm t.name) : searchList secs s = some t := by
  unfold searchList
  induction secs with
  | nil => simp at ht
  | cons x secs ih =>
    rw [List.pairwise_cons] at h
    rw [List.find?_cons]
    rcases List.mem_cons.mp ht with e' | ht
    · subst e'
      rw [ciEq_iff.mpr e]
    · have : ciEq s x.name = false := by
        rw [Bool.eq_false_iff]
        intro hc
        exact h.1 t ht (by rw [← ciEq_iff.mp hc, e])
      rw [this]
      exact ih h.2 ht

theorem Inv.names {p : Parser} (h : Inv p) : p.secs.Pairwise fun a b => norm a.name ≠ norm b.name := by
  have := h.uniq.secs
  unfold docOf at this
  rw [List.pairwise_map] at this
  exact this

theorem searchList_mem {secs : List Sec} {s : List Byte} {t : Sec} (h : searchList secs s = some t) :
    t ∈ secs ∧ norm s = norm t.name :=
  ⟨List.mem_of_find?_eq_some h, ciEq_iff.mp (List.find?_some (p := fun x : Sec => ciEq s x.name) h)⟩

theorem cached_live {p : Parser} (h : Inv p) : ∃ c, cached p = some c ∧
    (∀ t, c = some t → t ∈ p.secs ∧ p.last = some t.addr) ∧ (c = none → p.last = none) := by
  unfold cached
  cases hl : p.last with
  | none => exact ⟨none, rfl, by simp, fun _ => rfl⟩
  | some a =>
    obtain ⟨t, ht, e⟩ := h.live a hl
    subst e
    refine ⟨some t, by simp [find_addr h.addrs ht], ?_, by simp⟩
    intro u hu
    cases hu
    exact ⟨ht, rfl⟩

theorem search_eq {p : Parser} (h : Inv p) {s : List Byte} (hs : s ≠ []) :
    search p s = some ((searchList p.secs s).map (·.addr)) := by
  obtain ⟨c, hc, hl, _⟩ := cached_live h
  unfold search
  rw [if_neg hs, hc]
  simp only [Option.map_some, Option.some.injEq]
  cases c with
  | none => simp
  | some t =>
    cases hm : ciEq s t.name
    · simp [Option.filter, hm]
    · simp only [Option.filter, hm, if_true]
      rw [find_name h.names (hl t rfl).1 (ciEq_iff.mp hm)]
      rfl

theorem kvsAt_eq {p : Parser} (h : Inv p) {t : Sec} (ht : t ∈ p.secs) : kvsAt p t.addr = some t.kvs := by
  unfold kvsAt
  rw [find_addr h.addrs ht]; rfl

theorem hasL_iff {p : Parser} (s : List Byte) : hasL (docOf p) (norm s) = (searchList p.secs s).isSome := by
  unfold hasL docOf searchList
  rw [List.any_map]
  induction p.secs with
  | nil => rfl
  | cons x l ih =>
    rw [List.any_cons, List.find?_cons, ih]
    cases hc : ciEq s x.name
    · have : (norm x.name == norm s) = false := by
        rw [beq_eq_false_iff_ne]; intro e; rw [ciEq_iff.mpr e.symm] at hc; simp at hc
      simp [this]
    · have : (norm x.name == norm s) = true := by rw [ciEq_iff.mp hc]; simp
      simp [this]

theorem findL_eq {p : Parser} (s : List Byte) : ((docOf p).find? fun x => norm x.1 == norm s) =
    (searchList p.secs s).map fun t => (t.name, t.kvs) := by
  unfold docOf searchList
  rw [List.find?_map]
  congr 2
  funext x
  cases hc : ciEq s x.name
  · simp only [Function.comp]
    rw [beq_eq_false_iff_ne]; intro e; rw [ciEq_iff.mpr e.symm] at hc; simp at hc
  · simp only [Function.comp]
    rw [ciEq_iff.mp hc]; simp

theorem findKey_val (kvs : List KV) (k : List Byte) :
    ((findKey kvs k).bind fun i => kvs[i]?).map (·.value) = valK kvs (norm k) := by
  unfold findKey valK
  induction kvs with
  | nil => rfl
  | cons kv kvs ih =>
    rw [List.findIdx?_cons, List.find?_cons]
    cases hc : ciEq k kv.key
    · have : (norm kv.key == norm k) = false := by
        rw [beq_eq_false_iff_ne]; intro e; rw [ciEq_iff.mpr e.symm] at hc; simp at hc
      rw [this, ← ih]
      simp only [Bool.false_eq_true, if_false]
      cases kvs.findIdx? fun kv => ciEq k kv.key <;> simp
    · have : (norm kv.key == norm k) = true := by rw [ciEq_iff.mp hc]; simp
      simp [this]

theorem findKey_put (kvs : List KV) (k v : List Byte) (hk : k.length ≤ 63) :
    (match findKey kvs k with
      | some i => kvs.modify i fun kv => { kv with value := v }
      | none => kvs ++ [{ key := k.take 63, value := v }]) = putK k v kvs := by
  unfold findKey
  induction kvs with
  | nil => simp [putK, List.take_of_length_le hk]
  | cons kv kvs ih =>
    rw [List.findIdx?_cons]
    unfold putK
    cases hc : ciEq k kv.key
    · have : ¬ norm kv.key = norm k := by
        intro e; rw [ciEq_iff.mpr e.symm] at hc; simp at hc
      rw [if_neg this, ← ih]
      simp only [Bool.false_eq_true, if_false]
      cases kvs.findIdx? fun kv => ciEq k kv.key <;> simp
    · rw [if_pos (ciEq_iff.mp hc).symm]
      simp

theorem findKey_del (kvs : List KV) (k : List Byte) {i : Nat} (h : findKey kvs k = some i) :
    kvs.eraseIdx i = delK k kvs := by
  unfold findKey at h
  induction kvs generalizing i with
  | nil => simp at h
  | cons kv kvs ih =>
    rw [List.findIdx?_cons] at h
    unfold delK
    cases hc : ciEq k kv.key
    · have : ¬ norm kv.key = norm k := by
        intro e; rw [ciEq_iff.mpr e.symm] at hc; simp at hc
      rw [if_neg this]
      simp only [hc, Bool.false_eq_true, if_false] at h
      cases hf : kvs.findIdx? fun kv => ciEq k kv.key with
      | none => rw [hf] at h; simp at h
      | some j =>
        rw [hf] at h
        simp only [Option.map_some, Option.some.injEq] at h
        subst h
        rw [List.eraseIdx_cons_succ, ih hf]
    · rw [if_pos (ciEq_iff.mp hc).symm]
      simp only [hc, if_true, Option.some.injEq] at h
      subst h
      simp

theorem findKey_isSome (kvs : List KV) (k : List Byte) : (findKey kvs k).isSome = (valK kvs (norm k)).isSome := by
  rw [← findKey_val]
  cases h : findKey kvs k with
  | none => simp
  | some i =>
    unfold findKey at h
    rw [List.findIdx?_eq_some_iff_getElem] at h
    obtain ⟨hi, _⟩ := h
    simp [List.getElem?_eq_getElem hi]

theorem docOf_setKvs {p : Parser} (h : Inv p) {s : List Byte} {t : Sec} (ht : searchList p.secs s = some t)
    (f : List KV → List KV) :
    docOf (setKvs p t.addr f) = updL s (fun _ => f t.kvs) (docOf p) := by
  have ha := h.addrs
  unfold docOf setKvs
  simp only []
  revert ht ha
  generalize p.secs = secs
  intro ht ha
  induction secs with
  | nil => simp [searchList] at ht
  | cons x secs ih =>
    rw [List.pairwise_cons] at ha
    unfold searchList at ht
    rw [List.find?_cons] at ht
    cases hc : ciEq s x.name
    · rw [hc] at ht
      have hmem := List.mem_of_find?_eq_some ht
      have hne : ¬ norm x.name = norm s := by
        intro e; rw [ciEq_iff.mpr e.symm] at hc; simp at hc
      have hx : ¬ x.addr = t.addr := ha.1 t hmem
      rw [List.map_cons, List.map_cons, List.map_cons, updL, if_neg hne, if_neg hx, ih ht ha.2]
    · rw [hc] at ht
      cases ht
      rw [List.map_cons, List.map_cons, List.map_cons, updL, if_pos (ciEq_iff.mp hc).symm, if_pos rfl]
      congr 1
      rw [List.map_map]
      apply List.map_congr_left
      intro y hy
      have : ¬ y.addr = t.addr := fun e => ha.1 y hy e.symm
      simp [this]

theorem updL_putL {s k v : List Byte} {D : LDoc} {n : List Byte} {kvs : List KV}
    (h : (D.find? fun x => norm x.1 == norm s) = some (n, kvs)) :
    updL s (fun _ => putK k v kvs) D = putL s k v D := by
  induction D with
  | nil => simp at h
  | cons x D ih =>
    rw [List.find?_cons] at h
    unfold updL putL
    by_cases hx : norm x.1 = norm s
    · rw [if_pos hx, if_pos hx]
      simp only [hx, beq_self_eq_true, Option.some.injEq] at h
      rw [h]
    · rw [if_neg hx, if_neg hx]
      simp only [beq_eq_false_iff_ne.mpr hx] at h
      rw [ih h]

theorem updL_delK {s k : List Byte} {D : LDoc} {n : List Byte} {kvs : List KV}
    (h : (D.find? fun x => norm x.1 == norm s) = some (n, kvs)) :
    updL s (fun _ => delK k kvs) D = updL s (delK k) D := by
  induction D with
  | nil => simp at h
  | cons x D ih =>
    rw [List.find?_cons] at h
    unfold updL
    by_cases hx : norm x.1 = norm s
    · rw [if_pos hx, if_pos hx]
      simp only [hx, beq_self_eq_true, Option.some.injEq] at h
      rw [h]
    · rw [if_neg hx, if_neg hx]
      simp only [beq_eq_false_iff_ne.mpr hx] at h
      rw [ih h]

theorem inv_setKvs {p : Parser} (h : Inv p) (a : Nat) (f : List KV → List KV)
    (hu : UniqL (docOf (setKvs p a f))) : Inv (setKvs p a f) := by
  have e : ∀ s : Sec, (if s.addr = a then { s with kvs := f s.kvs } else s).addr = s.addr := by
    intro s; split <;> rfl
  refine ⟨?_, ?_, ?_, hu⟩
  · unfold setKvs
    simp only []
    rw [List.pairwise_map]
    simp only [e]
    exact h.addrs
  · intro s hs
    unfold setKvs at hs
    simp only [] at hs
    obtain ⟨x, hx, rfl⟩ := List.mem_map.mp hs
    rw [e]; exact h.fresh x hx
  · intro b hb
    obtain ⟨s, hs, e'⟩ := h.live b hb
    exact ⟨_, List.mem_map.mpr ⟨s, hs, rfl⟩, by rw [e]; exact e'⟩

theorem putL_append {s k v : List Byte} {D : LDoc} (h : hasL D (norm s) = false) :
    putL s k v D = D ++ [(s, [⟨k, v⟩])] := by
  induction D with
  | nil => rfl
  | cons x D ih =>
    rw [hasL_cons, Bool.or_eq_false_iff, beq_eq_false_iff_ne] at h
    unfold putL
    rw [if_neg h.1, ih h.2]; rfl

/-- the name of the cached section -/
def recentOf (p : Parser) : Option (List Byte) := ((cached p).bind id).map fun t => norm t.name

theorem cached_setKvs (p : Parser) (a : Nat) (f : List KV → List KV) : recentOf (setKvs p a f) = recentOf p := by
  unfold recentOf cached setKvs
  cases p.last with
  | none => rfl
  | some b =>
    simp only []
    generalize p.secs = secs
    induction secs with
    | nil => rfl
    | cons x secs ih =>
      rw [List.map_cons, List.find?_cons, List.find?_cons]
      have ea : (if x.addr = a then { x with kvs := f x.kvs } else x).addr = x.addr := by split <;> rfl
      have en : (if x.addr = a then { x with kvs := f x.kvs } else x).name = x.name := by split <;> rfl
      rw [ea]
      cases x.addr == b
      · exact ih
      · simp only [Option.map_some, Option.bind_some, id_eq, en]

/-- `ini_parser_put_string` on a section that exists. -/
theorem put_ok {p : Parser} (h : Inv p) {s k : List Byte} (v : Option (List Byte)) (hs : s ≠ []) (hk : k ≠ [])
    (hsl : s.length ≤ 63) (hkl : k.length ≤ 63) :
    ∃ p', putString p s (some k) v .ok = some (p', .succeed) ∧ Inv p' ∧
      docOf p' = putL s k ((v.getD []).take 255) (docOf p) ∧
      recentOf p' = (if hasL (docOf p) (norm s) then recentOf p else some (norm s)) := by
  unfold putString
  have hs1 : ¬ (k = [] ∨ s.length < 1) := by
    rintro (e | e)
    · exact hk e
    · exact hs (List.length_eq_zero_iff.mp (by omega))
  simp only [hs1, if_false]
  unfold searchOrAdd
  rw [search_eq h hs, hasL_iff]
  generalize (v.getD []).take 255 = w
  cases hf : searchList p.secs s with
  | some t =>
    simp only [Option.map_some, Option.isSome_some, if_true]
    rw [kvsAt_eq h (searchList_mem hf).1]
    simp only [Option.map_some, Option.some.injEq]
    have key := findKey_put t.kvs k w hkl
    have hfd := findL_eq (p := p) s
    rw [hf] at hfd
    simp only [Option.map_some] at hfd
    cases hfk : findKey t.kvs k with
    | some i =>
      rw [hfk] at key
      simp only [] at key ⊢
      have hdoc : docOf (setKvs p t.addr fun kvs => kvs.modify i fun kv => { kv with value := w }) =
          putL s k w (docOf p) := by
        rw [docOf_setKvs h hf, key, updL_putL hfd]
      exact ⟨_, rfl, inv_setKvs h _ _ (by rw [hdoc]; exact uniq_putL h.uniq), hdoc, cached_setKvs _ _ _⟩
    | none =>
      rw [hfk] at key
      simp only [] at key ⊢
      have hdoc : docOf (setKvs p t.addr fun kvs => kvs ++ [{ key := k.take 63, value := w }]) =
          putL s k w (docOf p) := by
        rw [docOf_setKvs h hf, key, updL_putL hfd]
      exact ⟨_, rfl, inv_setKvs h _ _ (by rw [hdoc]; exact uniq_putL h.uniq), hdoc, cached_setKvs _ _ _⟩
  | none =>
    simp only [Option.map_none, Option.map_some, if_neg hs, Option.isSome_none, Bool.false_eq_true, if_false]
    have hhas : hasL (docOf p) (norm s) = false := by rw [hasL_iff, hf]; rfl
    have hadd : addSection p s .ok = (Parser.mk (p.secs ++ [Sec.mk p.next s []]) (p.pred + (s.length + 6)) (some p.next) (p.next + 1),
        some p.next) := by
      unfold addSection
      simp [Allocs.ok, List.take_of_length_le hsl]
    rw [hadd]
    simp only []
    generalize hq : Parser.mk (p.secs ++ [Sec.mk p.next s []]) (p.pred + (s.length + 6)) (some p.next) (p.next + 1) = q
    have hqs : q.secs = p.secs ++ [Sec.mk p.next s []] := by rw [← hq]
    have hql : q.last = some p.next := by rw [← hq]
    have hqa : q.secs.Pairwise fun a b => a.addr ≠ b.addr := by
      rw [hqs, List.pairwise_append]
      refine ⟨h.addrs, by simp, ?_⟩
      intro a ha b hb
      simp only [List.mem_singleton] at hb
      subst hb
      have := h.fresh a ha
      simp only []
      omega
    have hmem : (Sec.mk p.next s []) ∈ q.secs := by rw [hqs]; simp
    have hqd : docOf q = docOf p ++ [(s, [])] := by unfold docOf; rw [hqs]; simp
    have hqu : UniqL (docOf q) := by
      rw [hqd]
      constructor
      · rw [List.pairwise_append]
        refine ⟨h.uniq.secs, by simp, ?_⟩
        intro a ha b hb
        simp only [List.mem_singleton] at hb
        subst hb
        intro e
        unfold hasL at hhas
        rw [List.any_eq_false] at hhas
        exact hhas a ha (by simp [e])
      · intro x hx
        rcases List.mem_append.mp hx with hx | hx
        · exact h.uniq.keys x hx
        · simp only [List.mem_singleton] at hx
          subst hx; simp
    have hqi : Inv q := by
      refine ⟨hqa, ?_, ?_, hqu⟩
      · intro x hx
        rw [hqs] at hx
        rw [← hq]
        rcases List.mem_append.mp hx with hx | hx
        · have := h.fresh x hx; simp only []; omega
        · simp only [List.mem_singleton] at hx
          subst hx; simp
      · intro a ha
        rw [hql] at ha
        cases ha
        exact ⟨_, hmem, rfl⟩
    have hk0 := kvsAt_eq hqi hmem
    simp only [] at hk0
    rw [hk0]
    have hfn : searchList q.secs s = some (Sec.mk p.next s []) := find_name hqi.names hmem rfl
    simp only [Option.map_some, findKey, List.findIdx?_nil, Allocs.ok, Bool.not_true, Bool.false_eq_true, if_false,
      if_true, Option.some.injEq, Prod.mk.injEq, and_true, exists_eq_left']
    have hdoc : docOf (setKvs q p.next fun kvs => kvs ++ [{ key := k.take 63, value := w }]) =
        putL s k w (docOf p) := by
      have := docOf_setKvs hqi hfn (fun kvs => kvs ++ [{ key := k.take 63, value := w }])
      simp only [] at this
      rw [this, putL_append hhas, hqd, List.nil_append, List.take_of_length_le hkl]
      clear this
      revert hhas
      generalize docOf p = D
      intro hhas
      induction D with
      | nil => simp [updL]
      | cons x D ih =>
        rw [hasL_cons, Bool.or_eq_false_iff, beq_eq_false_iff_ne] at hhas
        rw [List.cons_append, List.cons_append, updL, if_neg hhas.1, ih hhas.2]
    refine ⟨inv_setKvs hqi _ _ (by rw [hdoc]; exact uniq_putL h.uniq), hdoc, ?_⟩
    rw [cached_setKvs]
    unfold recentOf cached
    rw [hql]
    simp only []
    have := find_addr hqa hmem
    simp only [] at this
    rw [this]
    rfl

theorem put_invalid (p : Parser) {s k : List Byte} (v : Option (List Byte)) (a : Allocs) (h : s = [] ∨ k = []) :
    putString p s (some k) v a = some (p, .invalidParam) := by
  unfold putString
  have : k = [] ∨ s.length < 1 := by rcases h with rfl | h; exact .inr (by simp); exact .inl h
  simp only [this, if_true]

theorem search_nil (p : Parser) : search p [] = some none := by simp [search]

theorem valL_eq {p : Parser} (s k : List Byte) :
    valL (docOf p) (norm s) k = (searchList p.secs s).bind fun t => valK t.kvs k := by
  unfold valL
  rw [findL_eq]
  cases searchList p.secs s <;> rfl

theorem delKey_ok {p : Parser} (h : Inv p) {s : List Byte} (hs : s ≠ []) (k : List Byte) :
    ∃ p', deleteKey p s k = some (p', if (valL (docOf p) (norm s) (norm k)).isSome then .succeed else .notFound) ∧
      Inv p' ∧ recentOf p' = recentOf p ∧
      docOf p' = (if (valL (docOf p) (norm s) (norm k)).isSome then updL s (delK k) (docOf p) else docOf p) := by
  unfold deleteKey
  rw [search_eq h hs, valL_eq]
  cases hf : searchList p.secs s with
  | none => exact ⟨p, by simp, h, rfl, by simp⟩
  | some t =>
    simp only [Option.map_some, Option.bind_some]
    rw [kvsAt_eq h (searchList_mem hf).1]
    simp only [Option.map_some]
    simp only [← findKey_isSome]
    have hfd := findL_eq (p := p) s
    rw [hf] at hfd
    simp only [Option.map_some] at hfd
    cases hfk : findKey t.kvs k with
    | none => exact ⟨p, by simp, h, rfl, by simp⟩
    | some i =>
      have hdoc : docOf (setKvs p t.addr fun kvs => kvs.eraseIdx i) = updL s (delK k) (docOf p) := by
        rw [docOf_setKvs h hf, findKey_del _ _ hfk, updL_delK hfd]
      exact ⟨_, rfl, inv_setKvs h _ _ (by rw [hdoc]; exact uniq_delK h.uniq), cached_setKvs _ _ _,
        by simp [hdoc]⟩

theorem docOf_filter {secs : List Sec} {s : List Byte} {t : Sec} (ht : searchList secs s = some t)
    (ha : secs.Pairwise fun a b => a.addr ≠ b.addr) :
    (secs.filter fun x => decide (x.addr ≠ t.addr)).map (fun x => (x.name, x.kvs)) =
      delL s (secs.map fun x => (x.name, x.kvs)) := by
  induction secs with
  | nil => simp [searchList] at ht
  | cons x secs ih =>
    rw [List.pairwise_cons] at ha
    unfold searchList at ht
    rw [List.find?_cons] at ht
    cases hc : ciEq s x.name
    · rw [hc] at ht
      have hmem := List.mem_of_find?_eq_some ht
      have hne : ¬ norm x.name = norm s := by
        intro e; rw [ciEq_iff.mpr e.symm] at hc; simp at hc
      have hx : x.addr ≠ t.addr := ha.1 t hmem
      rw [List.map_cons, delL, if_neg hne, List.filter_cons_of_pos (by simpa using hx), List.map_cons,
        ih ht ha.2]
    · rw [hc] at ht
      cases ht
      rw [List.map_cons, delL, if_pos (ciEq_iff.mp hc).symm, List.filter_cons_of_neg (by simp)]
      congr 1
      rw [List.filter_eq_self]
      intro y hy
      have : y.addr ≠ t.addr := fun e => ha.1 y hy e.symm
      simpa using this

theorem delSec_ok {p : Parser} (h : Inv p) {s : List Byte} (hs : s ≠ []) (hr : recentOf p ≠ some (norm s)) :
    ∃ p', deleteSection p s = some (p', if hasL (docOf p) (norm s) then .succeed else .notFound) ∧
      Inv p' ∧ recentOf p' = recentOf p ∧
      docOf p' = (if hasL (docOf p) (norm s) then delL s (docOf p) else docOf p) := by
  unfold deleteSection
  rw [search_eq h hs, hasL_iff]
  cases hf : searchList p.secs s with
  | none => exact ⟨p, by simp, h, rfl, by simp⟩
  | some t =>
    simp only [Option.map_some, Option.isSome_some, if_true]
    have hm := searchList_mem hf
    have hsub : (p.secs.filter fun x => decide (x.addr ≠ t.addr)).Sublist p.secs := List.filter_sublist
    obtain ⟨c, hc, hl, hn⟩ := cached_live h
    have hlast : ∀ a, p.last = some a → a ≠ t.addr := by
      intro a ha e
      apply hr
      unfold recentOf
      rw [hc]
      cases c with
      | none => rw [hn rfl] at ha; simp at ha
      | some u =>
        obtain ⟨hu, hu2⟩ := hl u rfl
        rw [hu2] at ha
        cases ha
        have e1 := find_addr h.addrs hu
        have e2 := find_addr h.addrs hm.1
        rw [e, e2] at e1
        cases e1
        simp [hm.2]
    have hfind : ∀ a, a ≠ t.addr → ((p.secs.filter fun x => decide (x.addr ≠ t.addr)).find? fun x => x.addr == a) =
        p.secs.find? fun x => x.addr == a := by
      intro a ha
      rw [List.find?_filter]
      congr 1
      funext x
      by_cases hx : x.addr = a
      · have : x.addr ≠ t.addr := by rw [hx]; exact ha
        simp [hx, ha]
      · simp [hx]
    have hdoc : docOf { p with secs := p.secs.filter fun x => decide (x.addr ≠ t.addr) } = delL s (docOf p) :=
      docOf_filter hf h.addrs
    refine ⟨{ p with secs := p.secs.filter fun x => decide (x.addr ≠ t.addr) }, rfl, ?_, ?_, hdoc⟩
    · refine ⟨h.addrs.sublist hsub, fun x hx => h.fresh x (hsub.subset hx), ?_, by rw [hdoc]; exact uniq_delL h.uniq⟩
      intro a ha
      obtain ⟨x, hx, e⟩ := h.live a ha
      refine ⟨x, ?_, e⟩
      rw [List.mem_filter]
      exact ⟨hx, by rw [e]; simpa using hlast a ha⟩
    · unfold recentOf cached
      simp only []
      cases hpl : p.last with
      | none => rfl
      | some a => simp only [hfind a (hlast a hpl)]

end Verif.IniParser
