import Verif.StrParams.Map
/-!
# Text form of str_params (C35)
-/
namespace Verif.StrParams
open Verif.Hashmap (Ptr Cfg Map Ev R Inv kv hashKey Entry)
open Verif.Hashmap.Spec (FMap GoodCfg)
open Spec

theorem cstr_no0 {m : Mem} {t : Nat} {s : List Byte} (h : m.cstr t = some s) : (0 : Byte) ∉ s := by
  unfold Mem.cstr at h
  simp only at h
  split at h
  · injection h with h
    rw [← h]
    intro hm
    have := mem_takeWhile hm
    simp at this
  · cases h

theorem takeWhile_length_eq {p : Byte → Bool} {t : List Byte} (h : (t.takeWhile p).length = t.length) :
    t.takeWhile p = t := by
  have := List.takeWhile_append_dropWhile (p := p) (l := t)
  have hl := congrArg List.length this
  simp only [List.length_append] at hl
  have : t.dropWhile p = [] := List.eq_nil_of_length_eq_zero (by omega)
  have h2 := List.takeWhile_append_dropWhile (p := p) (l := t)
  rw [this, List.append_nil] at h2
  exact h2

theorem drop_takeWhile (p : Byte → Bool) (t : List Byte) (n : Nat) :
    t.drop ((t.takeWhile p).length + n) = (t.dropWhile p).drop n := by
  conv => lhs; rw [← List.takeWhile_append_dropWhile (p := p) (l := t)]
  rw [List.drop_append]
  have : ((t.takeWhile p ++ t.dropWhile p).takeWhile p) = t.takeWhile p := by
    rw [List.takeWhile_append_dropWhile]
  rw [this, List.drop_eq_nil_of_le (by omega)]
  simp

/-- The model of the loop body reads a piece as the specification says. -/
theorem splitPair_eq (t : List Byte) (hne : t ≠ []) : splitPair t = pairOf t := by
  unfold splitPair pairOf
  simp only
  obtain ⟨c, t', rfl⟩ := List.exists_cons_of_ne_nil hne
  by_cases hc : c = 61
  · subst hc; simp
  · have hh : ¬ (c :: t').head? = some 61 := by simpa using hc
    rw [if_neg hh]
    have hk0 : ¬ ((c :: t').takeWhile (fun x => decide (x ≠ 61))).length = 0 := by
      simp [hc]
    by_cases hl : ((c :: t').takeWhile (fun x => decide (x ≠ 61))).length = (c :: t').length
    · rw [if_pos hl]
      have he := takeWhile_length_eq hl
      have h2 := List.takeWhile_append_dropWhile (p := fun x => decide (x ≠ 61)) (l := c :: t')
      rw [he] at h2
      have h3 : (c :: t').dropWhile (fun x => decide (x ≠ 61)) = [] := by
        have := congrArg List.length h2
        simp only [List.length_append] at this
        exact List.eq_nil_of_length_eq_zero (by omega)
      rw [he, h3]; rfl
    · rw [if_neg hl, if_neg hk0, drop_takeWhile]

theorem pairOf_no0 {t : List Byte} (h0 : (0 : Byte) ∉ t) {k v : List Byte} (h : pairOf t = some (k, v)) :
    (0 : Byte) ∉ k ∧ (0 : Byte) ∉ v := by
  unfold pairOf at h
  split at h
  · cases h
  · simp only [Option.some.injEq, Prod.mk.injEq] at h
    obtain ⟨rfl, rfl⟩ := h
    exact ⟨fun h => h0 (List.IsPrefix.mem h (List.takeWhile_prefix _)),
      fun h => h0 (List.IsSuffix.mem (List.mem_of_mem_drop h) (List.dropWhile_suffix _))⟩

/-- Storing one pair. -/
theorem putPair_spec {s : St} {L : FMap} {X : List Ptr} (g : Good s L X) (k v : List Byte)
    (hk : (0 : Byte) ∉ k) (hv : (0 : Byte) ∉ v) (hsz : L.length < 2 ^ 59) :
    ∃ s' L' X', putPair s (k, v) = some s' ∧ Good s' L' X' ∧ s'.delim = s.delim ∧
      texts s'.heap L' = Spec.insert (texts s.heap L) k v ∧
      X'.length + L'.length = X.length + L.length + 1 ∧ L'.length ≤ L.length + 1 := by
  obtain ⟨g1, t1⟩ := g.dup k hk
  obtain ⟨g2, t2⟩ := g1.dup v hv
  simp only at g2 t2
  have hkt : ((s.heap.dup k).2.dup v).2.txt (s.heap.dup k).1 = k := by
    rw [dup_txt_old (by simp only [Heap.dup]; exact Nat.lt_succ_self _), dup_txt_new]
  have hvt : ((s.heap.dup k).2.dup v).2.txt ((s.heap.dup k).2.dup v).1 = v := dup_txt_new _ _
  unfold putPair
  simp only
  generalize ((s.heap.dup k).2.dup v).2 = hp at *
  generalize ((s.heap.dup k).2.dup v).1 = vp at *
  generalize (s.heap.dup k).1 = kp at *
  obtain ⟨m', old, h', L', X', p1, p2, p3, p4⟩ := mapPut_spec g2 allOk
  simp only at p1 p3 p4
  rw [hkt, hvt, t2, t1] at p4
  rw [p1]
  refine ⟨_, L', X', rfl, p2, rfl, ?_⟩
  simp only
  rcases p4 with ⟨q1, _, q3, q4⟩ | ⟨q1, q2, q3, q4, q5, q6, q7⟩ | ⟨q1, q2, q3, _⟩
  · have hl := congrArg List.length q4
    rw [Spec.insert, if_pos q1, List.length_map, texts_length, texts_length] at hl
    refine ⟨q4, ?_, by omega⟩
    rw [q3, hl, List.length_cons]; omega
  · refine ⟨q5, ?_, ?_⟩
    · rw [q4, q7, List.length_append]; simp; omega
    · rw [q7]; simp
  · exact absurd ⟨rfl, hsz⟩ q3

theorem tokens_ne (delims s : List Byte) : ∀ t ∈ tokens delims s, t ≠ [] := by
  intro t ht
  unfold tokens at ht
  have := (List.mem_filter.mp ht).2
  simpa using this

/-- The parsing loop, from the point where `strtok_r` is called. -/
theorem parse_loop (fuel : Nat) : ∀ (m : Mem) (p : Nat) (r after : List Byte) (s : St) (L : FMap)
    (X : List Ptr), m.drop p = r ++ 0 :: after → (0 : Byte) ∉ r → r.length < fuel → Good s L X →
    L.length + r.length < 2 ^ 59 →
    ∃ s' L' X', (match strtokR m p s.delim with
        | none => none
        | some (m, tok, save) => parseLoop fuel m tok save s) = some s' ∧ Good s' L' X' ∧
      s'.delim = s.delim ∧
      texts s'.heap L' = (pairs s.delim r).foldl (fun T p => Spec.insert T p.1 p.2) (texts s.heap L) ∧
      X'.length + L'.length = X.length + L.length + (pairs s.delim r).length := by
  induction fuel with
  | zero => intro m p r after s L X _ _ h; omega
  | succ fuel ih =>
    intro m p r after s L X hm h0 hr g hsz
    rcases strtokR_spec s.delim hm h0 with ⟨h1, h2⟩ | ⟨tok, r', m', t, p', h1, h2, _, _, _, _, h7, h8, h9, h10⟩
    · rw [h2]
      refine ⟨s, L, X, rfl, g, rfl, ?_, ?_⟩
      · simp [pairs, h1]
      · simp [pairs, h1]
    · rw [h2]
      simp only
      have hne : tok ≠ [] := tokens_ne s.delim r tok (by rw [h1]; simp)
      have ht0 : (0 : Byte) ∉ tok := cstr_no0 h9
      have hpairs : pairs s.delim r = (pairOf tok).toList ++ pairs s.delim r' := by
        unfold pairs
        rw [h1, List.filterMap_cons]
        cases pairOf tok <;> rfl
      unfold parseLoop
      simp only [h9]
      rw [if_neg hne]
      unfold onePair
      rw [splitPair_eq tok hne]
      cases hp : pairOf tok with
      | none =>
        simp only
        obtain ⟨s', L', X', k1, k2, k3, k4, k5⟩ := ih m' p' r' after s L X h7 h8 (by omega) g (by omega)
        rw [hpairs, hp]
        exact ⟨s', L', X', k1, k2, k3, k4, k5⟩
      | some q =>
        obtain ⟨k, v⟩ := q
        obtain ⟨hk0, hv0⟩ := pairOf_no0 ht0 hp
        obtain ⟨s1, L1, X1, a1, a2, a3, a4, a5, a6⟩ := putPair_spec g k v hk0 hv0 (by omega)
        simp only
        rw [a1]
        simp only
        obtain ⟨s', L', X', k1, k2, k3, k4, k5⟩ := ih m' p' r' after s1 L1 X1 h7 h8 (by omega) a2 (by omega)
        rw [hpairs, hp]
        refine ⟨s', L', X', k1, k2, by rw [k3, a3], ?_, ?_⟩
        · rw [k4, a3, a4]; rfl
        · rw [k5, a3]; simp; omega

/-- `str_params_create_str`. -/
theorem createStr_spec (d : Option (List Byte)) (text : List Byte) (h0 : (0 : Byte) ∉ text)
    (hlen : text.length < 2 ^ 59) :
    ∃ s L X, createStr d text = some s ∧ Good s L X ∧ s.delim = (d.getD [59]).take 1 ∧
      texts s.heap L = parse ((d.getD [59]).take 1) text ∧
      X.length + L.length = (pairs ((d.getD [59]).take 1) text).length := by
  obtain ⟨r, h1, _, h3⟩ := Hashmap.create_terminates (cfg ⟨fun _ => [], [], 1⟩) 16 true true
  obtain ⟨s, hs⟩ : ∃ s, create d true true = some (some s) := by
    unfold create
    rw [h1]
    cases r with
    | none => simp at h3
    | some m => exact ⟨_, rfl⟩
  obtain ⟨g, hd⟩ := create_good d true true s hs
  unfold createStr
  rw [hs]
  simp only
  obtain ⟨s', L', X', k1, k2, k3, k4, k5⟩ := parse_loop (text.length + 2) (text ++ [0]) 0 text [] s [] [] rfl h0
    (by omega) g (by simpa using hlen)
  refine ⟨s', L', X', k1, k2, by rw [k3, hd], ?_, ?_⟩
  · rw [k4, hd]; rfl
  · rw [k5, hd]; simp

/-! ### Printing -/

theorem foreachChain_fold {σ : Type} (f : σ → Ptr → Ptr → σ) (ch : List Entry) :
    ∀ st, (Hashmap.foreachChain (fun st k v => (true, f st k v)) ch st).1 =
      (ch.map kv).foldl (fun st p => f st p.1 p.2) st := by
  induction ch with
  | nil => intro st; rfl
  | cons e es ih =>
    intro st
    unfold Hashmap.foreachChain
    simp only [Bool.true_eq_false, if_false, ih]
    rfl

theorem foreachAll_fold {σ : Type} (f : σ → Ptr → Ptr → σ) (m : Map) (cnt : Nat) :
    ∀ i st, i + cnt = m.buckets.length →
      ∃ evs, Hashmap.foreachAll (fun st k v => (true, f st k v)) m cnt i st =
        some (((m.buckets.drop i).flatten.map kv).foldl (fun st p => f st p.1 p.2) st, evs) := by
  induction cnt with
  | zero =>
    intro i st h
    refine ⟨[], ?_⟩
    rw [List.drop_of_length_le (by omega)]
    rfl
  | succ cnt ih =>
    intro i st h
    have hi : i < m.buckets.length := by omega
    obtain ⟨evs, h1⟩ := ih (i + 1) (Hashmap.foreachChain (fun st k v => (true, f st k v)) m.buckets[i] st).1
      (by omega)
    refine ⟨(Hashmap.foreachChain (fun st k v => (true, f st k v)) m.buckets[i] st).2 ++ evs, ?_⟩
    unfold Hashmap.foreachAll
    simp only [List.getElem?_eq_getElem hi, Option.bind_eq_bind, Option.bind_some, h1]
    rw [foreachChain_fold, List.drop_eq_getElem_cons hi, List.flatten_cons, List.map_append,
      List.foldl_append]

/-- The text built by `combine_strings` from a non-empty text on. -/
theorem combine_fold (s : St) (E : FMap)
    (hE : ∀ p ∈ E, p.1 ∈ s.heap.live ∧ p.2 ∈ s.heap.live) : ∀ (c : List Byte),
    E.foldl (fun st p => (combine s st p.1 p.2).2) (some (some c)) =
      some (some (c ++ ((texts s.heap E).map fun p => s.delim ++ (p.1 ++ [61] ++ p.2)).flatten)) := by
  induction E with
  | nil => intro c; simp [texts]
  | cons p E ih =>
    intro c
    obtain ⟨h1, h2⟩ := hE p (by simp)
    rw [List.foldl_cons]
    have : (combine s (some (some c)) p.1 p.2).2 =
        some (some (c ++ (s.delim ++ (s.heap.txt p.1 ++ [61] ++ s.heap.txt p.2)))) := by
      simp [combine, readStr, h1, h2]
    rw [this, ih (fun p hp => hE p (by simp [hp]))]
    simp [texts]

theorem intercalate_cons (d x : List Byte) (l : List (List Byte)) :
    List.intercalate d (x :: l) = x ++ (l.map fun y => d ++ y).flatten := by
  induction l generalizing x with
  | nil => simp [List.intercalate]
  | cons y l ih =>
    have := ih y
    simp only [List.intercalate, List.intersperse, List.flatten_cons] at this ⊢
    rw [this]; simp

/-- `str_params_to_str` prints all the pairs, in some order. -/
theorem toStr_spec {s : St} {L : FMap} {X : List Ptr} (g : Good s L X) :
    ∃ T, T.Perm (texts s.heap L) ∧ toStr s = some (print s.delim T) := by
  have hp := g.r.perm
  refine ⟨texts s.heap (s.map.buckets.flatten.map kv), hp.map _, ?_⟩
  obtain ⟨evs, h1⟩ := foreachAll_fold (fun st k v => (combine s st k v).2) s.map s.map.bucketCount 0
    (some none) (by rw [g.r.inv.len]; omega)
  have h2 : Hashmap.foreach (cfg s.heap) (combine s) s.map (some none) = some
      ((s.map.buckets.flatten.map kv).foldl (fun st p => (combine s st p.1 p.2).2) (some none),
        Hashmap.locked (cfg s.heap) evs) := by
    unfold Hashmap.foreach
    have : combine s = fun st k v => (true, (combine s st k v).2) := rfl
    rw [this, h1]
    rfl
  unfold toStr
  rw [h2]
  have hE : ∀ p ∈ s.map.buckets.flatten.map kv, p.1 ∈ s.heap.live ∧ p.2 ∈ s.heap.live :=
    fun p hpm => ⟨g.mem1 (hp.mem_iff.mp hpm), g.mem2 (hp.mem_iff.mp hpm)⟩
  generalize s.map.buckets.flatten.map kv = E at hE ⊢
  cases E with
  | nil => rfl
  | cons p E =>
    obtain ⟨k1, k2⟩ := hE p (by simp)
    rw [List.foldl_cons]
    have : (combine s (some none) p.1 p.2).2 =
        some (some (s.heap.txt p.1 ++ [61] ++ s.heap.txt p.2)) := by
      simp [combine, readStr, k1, k2]
    rw [this, combine_fold s E (fun p hp => hE p (by simp [hp]))]
    simp only [print, Option.getD_some, texts, List.map_cons]
    rw [intercalate_cons]
    simp [Function.comp_def]

/-! ### Round trip -/

theorem tokens_intercalate (d : Byte) (l : List (List Byte)) (hl : ∀ t ∈ l, t ≠ [] ∧ d ∉ t) :
    tokens [d] (List.intercalate [d] l) = l := by
  have hc : ∀ t : List Byte, d ∉ t → ∀ c ∈ t, List.contains [d] c = false := by
    intro t ht c hcm
    simp only [List.contains_cons, List.contains_nil, Bool.or_false, beq_eq_false_iff_ne, ne_eq]
    exact fun e => ht (e ▸ hcm)
  induction l with
  | nil => simp [List.intercalate, tokens_nil]
  | cons x l ih =>
    obtain ⟨h1, h2⟩ := hl x (by simp)
    cases l with
    | nil =>
      simp only [List.intercalate, List.intersperse, List.flatten_cons, List.flatten_nil, List.append_nil]
      exact tokens_all h1 (hc x h2)
    | cons y l =>
      have e : List.intercalate [d] (x :: y :: l) = x ++ d :: List.intercalate [d] (y :: l) := by
        rw [intercalate_cons, intercalate_cons]; simp
      rw [e, tokens_first h1 (hc x h2) (by simp), ih (fun t ht => hl t (by simp [ht]))]

theorem pairOf_print (k v : List Byte) (hne : k ≠ []) (hk : (61 : Byte) ∉ k) :
    pairOf (k ++ [61] ++ v) = some (k, v) := by
  unfold pairOf
  have hh : ¬ (k ++ [61] ++ v).head? = some 61 := by
    obtain ⟨c, k', rfl⟩ := List.exists_cons_of_ne_nil hne
    simp only [List.cons_append, List.head?_cons, Option.some.injEq]
    intro h; exact hk (by simp [h])
  rw [if_neg hh]
  have h1 : ∀ c ∈ k, decide (c ≠ 61) = true := by
    intro c hc; simp only [decide_eq_true_eq]; exact fun e => hk (e ▸ hc)
  rw [List.append_assoc, List.takeWhile_append_of_pos h1, List.dropWhile_append_of_pos h1]
  simp

theorem insert_new (A : SMap) (k v : List Byte) (h : ∀ p ∈ A, p.1 ≠ k) :
    Spec.insert A k v = A ++ [(k, v)] := by
  unfold Spec.insert
  rw [if_neg]
  unfold find
  rw [Option.isSome_map, List.find?_isSome]
  rintro ⟨p, hp, he⟩
  exact h p hp (by simpa using he)

theorem foldl_insert_distinct (B : SMap) : ∀ A : SMap, ((A ++ B).map (·.1)).Nodup →
    B.foldl (fun T p => Spec.insert T p.1 p.2) A = A ++ B := by
  induction B with
  | nil => intro A _; simp
  | cons p B ih =>
    intro A h
    rw [List.foldl_cons, insert_new]
    · have := ih (A ++ [(p.1, p.2)]) (by simpa using h)
      rw [this]; simp
    · intro q hq
      rw [List.map_append, List.nodup_append] at h
      exact h.2.2 q.1 (List.mem_map.mpr ⟨q, hq, rfl⟩) p.1 (by simp)

theorem parse_print (d : Byte) (T : SMap) (hd : d ≠ 61) (hT : ∀ p ∈ T, p.1 ≠ [] ∧ (61 : Byte) ∉ p.1 ∧ d ∉ p.1 ∧ d ∉ p.2)
    (hn : (T.map (·.1)).Nodup) : pairs [d] (print [d] T) = T ∧ parse [d] (print [d] T) = T := by
  have h1 : pairs [d] (print [d] T) = T := by
    unfold pairs print
    rw [tokens_intercalate]
    · rw [List.filterMap_map]
      clear hn
      induction T with
      | nil => rfl
      | cons p T ih =>
        rw [List.filterMap_cons]
        have := pairOf_print p.1 p.2 (hT p (by simp)).1 (hT p (by simp)).2.1
        simp only [Function.comp, this]
        rw [ih (fun p hp => hT p (by simp [hp]))]
    · intro t ht
      obtain ⟨p, hp, rfl⟩ := List.mem_map.mp ht
      obtain ⟨a, b, c, e⟩ := hT p hp
      refine ⟨by simp, ?_⟩
      simp only [List.mem_append, List.mem_singleton, not_or]
      exact ⟨⟨c, hd⟩, e⟩
  refine ⟨h1, ?_⟩
  unfold parse
  rw [h1, foldl_insert_distinct T [] (by simpa using hn)]
  rfl

theorem texts_nodup {s : St} {L : FMap} {X : List Ptr} (g : Good s L X) :
    ((texts s.heap L).map (·.1)).Nodup := by
  unfold texts
  rw [List.map_map, List.nodup_iff_pairwise_ne, List.pairwise_map]
  refine g.r.distinct.imp ?_
  intro a b h
  simpa [cfg] using h

theorem find_perm {T T' : SMap} (h : T.Perm T') (hn : (T'.map (·.1)).Nodup) (k : List Byte) :
    find T k = find T' k := by
  have key : ∀ {A B : SMap}, A.Perm B → (B.map (·.1)).Nodup → ∀ v, find A k = some v → find B k = some v := by
    intro A B hAB hB v hv
    unfold find at hv ⊢
    rw [Option.map_eq_some_iff] at hv
    obtain ⟨p, hp, rfl⟩ := hv
    have hpk := List.find?_some hp
    have hpA := List.mem_of_find?_eq_some hp
    have hpB := hAB.mem_iff.mp hpA
    cases hq : B.find? (fun p => p.1 == k) with
    | none =>
      rw [List.find?_eq_none] at hq
      exact absurd hpk (by simpa using hq p hpB)
    | some q =>
      have hqk := List.find?_some hq
      have hqB := List.mem_of_find?_eq_some hq
      have e : q.1 = p.1 := by
        rw [show q.1 = k by simpa using hqk, show p.1 = k by simpa using hpk]
      have : q = p := by
        have hpw := List.pairwise_map.mp (List.nodup_iff_pairwise_ne.mp hB)
        by_cases hqp : q = p
        · exact hqp
        · obtain ⟨i, hi, rfl⟩ := List.mem_iff_getElem.mp hqB
          obtain ⟨j, hj, rfl⟩ := List.mem_iff_getElem.mp hpB
          rw [List.pairwise_iff_getElem] at hpw
          rcases Nat.lt_trichotomy i j with h | h | h
          · exact absurd e (hpw i j hi hj h)
          · subst h; rfl
          · exact absurd e.symm (hpw j i hj hi h)
      rw [this]; rfl
  have hnT : (T.map (·.1)).Nodup := (h.map _).nodup_iff.mpr hn
  cases h1 : find T k with
  | some v => exact (key h hn v h1).symm
  | none =>
    cases h2 : find T' k with
    | none => rfl
    | some v => rw [key h.symm hnT v h2] at h1; cases h1

theorem print_length_no0 (d : Byte) (hd : d ≠ 0) (T : SMap) (hT : ∀ p ∈ T, (0 : Byte) ∉ p.1 ∧ (0 : Byte) ∉ p.2) :
    (0 : Byte) ∉ print [d] T := by
  unfold print
  cases T with
  | nil => simp [List.intercalate]
  | cons p T =>
    rw [List.map_cons, intercalate_cons]
    obtain ⟨h1, h2⟩ := hT p (by simp)
    intro h
    rw [List.mem_append, List.mem_flatten] at h
    rcases h with h | ⟨x, hx, h⟩
    · simp only [List.mem_append, List.mem_singleton] at h
      rcases h with (h | h) | h
      · exact h1 h
      · exact absurd h (by decide)
      · exact h2 h
    · simp only [List.mem_map] at hx
      obtain ⟨y, ⟨q, hq, rfl⟩, rfl⟩ := hx
      obtain ⟨h3, h4⟩ := hT q (by simp [hq])
      simp only [List.mem_append, List.mem_singleton] at h
      rcases h with h | (h | h) | h
      · exact hd h.symm
      · exact h3 h
      · exact absurd h (by decide)
      · exact h4 h

/-- C35: after any history, `str_params_to_str` gives the pairs of the map as `key=value`, each once, in some
order, with the delimiter between them (and none at the ends). -/
theorem to_str_lists_pairs (d : Option (List Byte)) (ok1 ok2 : Bool) (s0 s : St)
    (hs : create d ok1 ok2 = some (some s0)) (ops : List Op) (hok : ∀ o ∈ ops, Spec.ok o) (rs : List Res)
    (hrun : run s0 ops = some (s, rs)) :
    ∃ T, T.Perm (Spec.run [] ops).1 ∧ toStr s = some (print ((d.getD [59]).take 1) T) := by
  obtain ⟨g0, hdel⟩ := create_good _ ok1 ok2 s0 hs
  obtain ⟨s1, L, rs1, h1, g, hde, h4⟩ := run_spec ops g0 hok
  rw [hrun] at h1
  simp only [Option.some.injEq, Prod.mk.injEq] at h1
  obtain ⟨e1, _⟩ := h1
  subst e1
  have hTL : texts s.heap L = (Spec.run [] ops).1 := congrArg Prod.fst h4
  obtain ⟨T, hperm, htext⟩ := toStr_spec g
  rw [hTL] at hperm
  rw [hde, hdel] at htext
  exact ⟨T, hperm, htext⟩

/-- C35: after any history, if the keys are non-empty and contain neither '=' nor the delimiter and the
values do not contain the delimiter, then the text `str_params_to_str` gives, read by
`str_params_create_str` with the same delimiter, gives an object that answers every look-up the same way;
and destroying that object leaves no string behind. -/
theorem text_round_trip (d : Byte) (more : List Byte) (ok1 ok2 : Bool) (s0 s : St)
    (hs : create (some (d :: more)) ok1 ok2 = some (some s0)) (hd : d ≠ 0 ∧ d ≠ 61)
    (ops : List Op) (hok : ∀ o ∈ ops, Spec.ok o) (rs : List Res) (hrun : run s0 ops = some (s, rs))
    (hT : ∀ p ∈ (Spec.run [] ops).1, p.1 ≠ [] ∧ (61 : Byte) ∉ p.1 ∧ d ∉ p.1 ∧ d ∉ p.2) :
    ∃ text, toStr s = some text ∧ (text.length < 2 ^ 59 →
      ∃ s' h, createStr (some (d :: more)) text = some s' ∧
        (∀ k, hasKey s' k = hasKey s k) ∧
        (∀ k out size, size ≤ out.length → getStr s' k out size = getStr s k out size) ∧
        destroy s' = some h ∧ h.live = []) := by
  obtain ⟨g0, hdel⟩ := create_good _ ok1 ok2 s0 hs
  obtain ⟨s1, L, rs1, h1, g, hde, h4⟩ := run_spec ops g0 hok
  rw [hrun] at h1
  simp only [Option.some.injEq, Prod.mk.injEq] at h1
  obtain ⟨e1, _⟩ := h1
  subst e1
  have hTL : texts s.heap L = (Spec.run [] ops).1 := congrArg Prod.fst h4
  have hdl : s.delim = [d] := by rw [hde, hdel]; simp
  obtain ⟨T, hperm, htext⟩ := toStr_spec g
  have hn := texts_nodup g
  have hnT : (T.map (·.1)).Nodup := (hperm.map _).nodup_iff.mpr hn
  rw [hdl] at htext
  refine ⟨_, htext, fun hlen => ?_⟩
  have hmem : ∀ p ∈ T, p ∈ texts s.heap L := fun p hp => hperm.mem_iff.mp hp
  have h0 : (0 : Byte) ∉ print [d] T := by
    apply print_length_no0 d hd.1
    intro p hp
    obtain ⟨q, hq, rfl⟩ := List.mem_map.mp (hmem p hp)
    exact ⟨g.no0 _ (g.mem1 hq), g.no0 _ (g.mem2 hq)⟩
  obtain ⟨hp1, hp2⟩ := parse_print d T hd.2 (fun p hp => hT p (by rw [← hTL]; exact hmem p hp)) hnT
  obtain ⟨s', L', X', k1, g', _, k4, k5⟩ := createStr_spec (some (d :: more)) (print [d] T) h0 hlen
  have hdd : ((some (d :: more)).getD [59]).take 1 = [d] := by simp
  rw [hdd] at k4 k5
  rw [hp2] at k4
  rw [hp1] at k5
  have hX : X' = [] := by
    have := congrArg List.length k4
    rw [texts_length] at this
    exact List.eq_nil_of_length_eq_zero (by omega)
  rw [hX] at g'
  obtain ⟨h, d1, d2⟩ := destroy_spec g'
  have hf : ∀ k, find (texts s'.heap L') k = find (texts s.heap L) k := by
    intro k; rw [k4]; exact find_perm hperm hn k
  refine ⟨s', h, k1, ?_, ?_, d1, List.Perm.eq_nil d2⟩
  · intro k; rw [hasKey_spec g', hasKey_spec g, hf]
  · intro k out size hsz; rw [getStr_spec g' k out size hsz, getStr_spec g k out size hsz, hf]

/-- C35: what `str_params_create_str` understands, for every text: the object answers as the map the text
describes. -/
theorem create_str_parses (d : Option (List Byte)) (text : List Byte) (h0 : (0 : Byte) ∉ text)
    (hlen : text.length < 2 ^ 59) :
    ∃ s, createStr d text = some s ∧
      (∀ k, hasKey s k = some (find (parse ((d.getD [59]).take 1) text) k).isSome) ∧
      (∀ k out size, size ≤ out.length → getStr s k out size = some (match
          find (parse ((d.getD [59]).take 1) text) k with
        | none => (out, -2)
        | some v => if size < v.length + 1 then (out, -12) else (out.front (v ++ [0]), 0))) := by
  obtain ⟨s, L, X, h1, g, _, h4, _⟩ := createStr_spec d text h0 hlen
  refine ⟨s, h1, fun k => by rw [hasKey_spec g, h4], ?_⟩
  intro k out size hsz
  rw [getStr_spec g k out size hsz, h4]
  cases find (parse ((d.getD [59]).take 1) text) k <;> rfl

/-- FINDING: every pair of the text whose key came before leaks a block: after destroying the object, as
many strings stay allocated as there are pairs too many. -/
theorem create_str_leaks (d : Option (List Byte)) (text : List Byte) (h0 : (0 : Byte) ∉ text)
    (hlen : text.length < 2 ^ 59) :
    ∃ s h, createStr d text = some s ∧ destroy s = some h ∧
      h.live.length + (parse ((d.getD [59]).take 1) text).length =
        (pairs ((d.getD [59]).take 1) text).length := by
  obtain ⟨s, L, X, h1, g, _, h4, h5⟩ := createStr_spec d text h0 hlen
  obtain ⟨h, d1, d2⟩ := destroy_spec g
  refine ⟨s, h, h1, d1, ?_⟩
  rw [d2.length_eq, ← h4, texts_length]; exact h5

end Verif.StrParams
