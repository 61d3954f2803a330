import Verif.StrParamsOom.Create
/-!
# str_params_to_str when memory runs out (C91)
-/
namespace Verif.StrParamsOom
open Verif.Hashmap (Ptr Cfg Map Entry Ev R Inv kv hashKey)
open Verif.Hashmap.Spec (FMap GoodCfg)
open Verif.StrParams (Heap St Oks cfg good_cfg Good texts)
open Verif.StrParams.Spec (SMap print)

/-- The state of `combine_strings` after the pairs of `D` were visited: `K` of them are in the text so far. -/
structure Sofar (s : St) (ask : Nat → Bool) (D K : FMap) (c : Ctx) : Prop where
  text : c.str = if K = [] then none else some (print s.delim (texts s.heap K))
  owned : c.owned = if K = [] then 0 else 1
  /-- either nothing was refused and everything visited is there, or what is there was visited after the first
  refused pair -/
  kept : (K = D ∧ c.asked = D.length ∧ ∀ i < D.length, ask i = true) ∨
    (∃ i < D.length, ask i = false ∧ (∀ j < i, ask j = true) ∧ K.Sublist (D.drop (i + 1)))

theorem kept_more {ask : Nat → Bool} {D K E F : FMap} (hE : E.Sublist F)
    (h : ∃ i < D.length, ask i = false ∧ (∀ j < i, ask j = true) ∧ K.Sublist (D.drop (i + 1))) :
    ∃ i < (D ++ F).length, ask i = false ∧ (∀ j < i, ask j = true) ∧ (K ++ E).Sublist ((D ++ F).drop (i + 1)) := by
  obtain ⟨i, hi, h1, h2, h3⟩ := h
  refine ⟨i, by rw [List.length_append]; omega, h1, h2, ?_⟩
  rw [List.drop_append_of_le_length (by omega)]
  exact h3.append hE

theorem kept_refuse {ask : Nat → Bool} {D K : FMap} {n : Nat} (p : Ptr × Ptr) (ha : ask n = false)
    (h : (K = D ∧ n = D.length ∧ ∀ i < D.length, ask i = true) ∨
      (∃ i < D.length, ask i = false ∧ (∀ j < i, ask j = true) ∧ K.Sublist (D.drop (i + 1)))) :
    ∃ i < (D ++ [p]).length, ask i = false ∧ (∀ j < i, ask j = true) ∧
      ([] : FMap).Sublist ((D ++ [p]).drop (i + 1)) := by
  rcases h with ⟨_, k1, k2⟩ | ⟨i, hi, h1, h2, _⟩
  · exact ⟨D.length, by simp, by rw [← k1]; exact ha, k2, List.nil_sublist _⟩
  · exact ⟨i, by rw [List.length_append]; omega, h1, h2, List.nil_sublist _⟩

theorem kept_grant {ask : Nat → Bool} {D K : FMap} {n : Nat} (p : Ptr × Ptr) (ha : ask n = true)
    (h : (K = D ∧ n = D.length ∧ ∀ i < D.length, ask i = true) ∨
      (∃ i < D.length, ask i = false ∧ (∀ j < i, ask j = true) ∧ K.Sublist (D.drop (i + 1)))) :
    (K ++ [p] = D ++ [p] ∧ n + 1 = (D ++ [p]).length ∧ ∀ i < (D ++ [p]).length, ask i = true) ∨
      (∃ i < (D ++ [p]).length, ask i = false ∧ (∀ j < i, ask j = true) ∧
        (K ++ [p]).Sublist ((D ++ [p]).drop (i + 1))) := by
  rcases h with ⟨k0, k1, k2⟩ | h
  · left
    refine ⟨by rw [k0], by simp [k1], ?_⟩
    intro i hi
    rw [List.length_append] at hi
    by_cases hin : i = n
    · rw [hin]; exact ha
    · exact k2 i (by simp only [List.length_cons, List.length_nil] at hi; omega)
  · exact Or.inr (kept_more (List.Sublist.refl _) h)

theorem print_snoc (d : List Byte) (T : SMap) (p : List Byte × List Byte) (h : T ≠ []) :
    print d (T ++ [p]) = print d T ++ d ++ (p.1 ++ [61] ++ p.2) := by
  unfold print
  cases T with
  | nil => exact absurd rfl h
  | cons q T =>
    rw [List.cons_append, List.map_cons, List.map_cons, StrParams.intercalate_cons, StrParams.intercalate_cons]
    simp

theorem combineO_step (s : St) (ask : Nat → Bool) (D K : FMap) (c : Ctx) (w : Sofar s ask D K c) (p : Ptr × Ptr)
    (h1 : p.1 ∈ s.heap.live) (h2 : p.2 ∈ s.heap.live) :
    ∃ c' K', combineO s ask (some c) p.1 p.2 = (ask c.asked, some c') ∧ Sofar s ask (D ++ [p]) K' c' ∧
      (ask c.asked = false → K' = []) := by
  have hr : ∀ q, q ∈ s.heap.live → StrParams.readStr s q = some (s.heap.txt q) := by
    intro q hq; unfold StrParams.readStr; rw [if_pos hq]
  unfold combineO
  rw [hr _ h1, hr _ h2]
  simp only
  by_cases hk : K = []
  · have t := w.text
    have o := w.owned
    rw [if_pos hk] at t o
    rw [t, o]
    simp only [Option.getD_none, Option.isSome_none, Bool.false_eq_true, if_false, List.nil_append]
    cases ha : ask c.asked with
    | true =>
      simp only [if_true]
      refine ⟨_, [p], rfl, ⟨?_, rfl, ?_⟩, nofun⟩
      · simp [texts, print]
      · have := kept_grant p ha w.kept
        rw [hk] at this
        exact this
    | false =>
      simp only [Bool.false_eq_true, if_false]
      exact ⟨_, [], rfl, ⟨rfl, rfl, Or.inr (kept_refuse p ha w.kept)⟩, fun _ => rfl⟩
  · have t := w.text
    have o := w.owned
    rw [if_neg hk] at t o
    rw [t, o]
    simp only [Option.getD_some, Option.isSome_some, if_true]
    cases ha : ask c.asked with
    | true =>
      simp only [if_true]
      have hne : K ++ [p] ≠ [] := by simp
      refine ⟨_, K ++ [p], rfl, ⟨?_, ?_, ?_⟩, nofun⟩
      · rw [if_neg hne]
        have : texts s.heap (K ++ [p]) = texts s.heap K ++ [(s.heap.txt p.1, s.heap.txt p.2)] := by simp [texts]
        rw [this, print_snoc _ _ _ (by simp [texts, hk])]
        simp
      · rw [if_neg hne]
      · exact kept_grant p ha w.kept
    | false =>
      simp only [Bool.false_eq_true, if_false]
      exact ⟨_, [], rfl, ⟨rfl, rfl, Or.inr (kept_refuse p ha w.kept)⟩, fun _ => rfl⟩

/-- The rest of the chain is skipped after a refusal. -/
theorem Sofar.skip {s : St} {ask : Nat → Bool} {D : FMap} {c : Ctx} (w : Sofar s ask D [] c) (hD : D ≠ [])
    (E : FMap) : Sofar s ask (D ++ E) [] c := by
  refine ⟨w.text, w.owned, Or.inr ?_⟩
  rcases w.kept with ⟨k, _⟩ | k
  · exact absurd k.symm hD
  · exact kept_more (List.nil_sublist E) k

theorem combine_chain (s : St) (ask : Nat → Bool) (ch : List Entry) :
    ∀ (D K : FMap) (c : Ctx), Sofar s ask D K c →
    (∀ e ∈ ch, e.key ∈ s.heap.live ∧ e.value ∈ s.heap.live) →
    ∃ c' K', (Hashmap.foreachChain (combineO s ask) ch (some c)).1 = some c' ∧
      Sofar s ask (D ++ ch.map kv) K' c' := by
  induction ch with
  | nil => intro D K c w _; exact ⟨c, K, rfl, by simpa using w⟩
  | cons e es ih =>
    intro D K c w hl
    obtain ⟨c1, K1, k1, k2, k3⟩ := combineO_step s ask D K c w (kv e) (hl e (by simp)).1 (hl e (by simp)).2
    have k1 : combineO s ask (some c) e.key e.value = (ask c.asked, some c1) := k1
    unfold Hashmap.foreachChain
    rw [k1]
    simp only
    cases ha : ask c.asked with
    | true =>
      rw [if_neg (by simp)]
      obtain ⟨c2, K2, j1, j2⟩ := ih (D ++ [kv e]) K1 c1 k2 (fun e he => hl e (by simp [he]))
      refine ⟨c2, K2, j1, ?_⟩
      simpa using j2
    | false =>
      rw [if_pos rfl]
      have hK := k3 ha
      subst hK
      refine ⟨c1, [], rfl, ?_⟩
      have := k2.skip (by simp) (es.map kv)
      simpa using this

theorem combine_all (s : St) (ask : Nat → Bool) (m : Map)
    (hl : ∀ e ∈ m.buckets.flatten, e.key ∈ s.heap.live ∧ e.value ∈ s.heap.live) (cnt : Nat) :
    ∀ (i : Nat) (D K : FMap) (c : Ctx), Sofar s ask D K c → i + cnt = m.buckets.length →
    ∃ c' K' evs, Hashmap.foreachAll (combineO s ask) m cnt i (some c) = some (some c', evs) ∧
      Sofar s ask (D ++ (m.buckets.drop i).flatten.map kv) K' c' := by
  induction cnt with
  | zero =>
    intro i D K c w h
    rw [List.drop_of_length_le (by omega)]
    exact ⟨c, K, [], rfl, by simpa using w⟩
  | succ cnt ih =>
    intro i D K c w h
    have hi : i < m.buckets.length := by omega
    obtain ⟨c1, K1, k1, k2⟩ := combine_chain s ask m.buckets[i] D K c w
      (fun e he => hl e (List.mem_flatten.mpr ⟨_, List.getElem_mem hi, he⟩))
    obtain ⟨c2, K2, evs, j1, j2⟩ := ih (i + 1) _ K1 c1 k2 (by omega)
    refine ⟨c2, K2, (Hashmap.foreachChain (combineO s ask) m.buckets[i] (some c)).2 ++ evs, ?_, ?_⟩
    · unfold Hashmap.foreachAll
      simp only [List.getElem?_eq_getElem hi, Option.bind_eq_bind, Option.bind_some, k1, j1]
    · rw [List.drop_eq_getElem_cons hi, List.flatten_cons, List.map_append, ← List.append_assoc]
      exact j2

/-- C91: `str_params_to_str` on any object, whatever requests are refused.  `E` is the order in which the
pairs are visited, `K` the ones listed in the text returned.  It returns NULL or a text, the caller owns one block
or none accordingly, and nothing else stays allocated.  All pairs are listed if no request is refused; if the
i-th is the first refused, none of the first i + 1 pairs is listed - and a text is returned all the same. -/
theorem to_str_under_refusals (d : Option (List Byte)) (ok1 ok2 : Bool) (s0 s : St)
    (h0 : StrParams.create d ok1 ok2 = some (some s0)) (ops : List StrParams.Spec.Op)
    (hops : ∀ o ∈ ops, StrParams.Spec.ok o) (rs : List StrParams.Spec.Res)
    (hrun : StrParams.run s0 ops = some (s, rs)) (ask : Nat → Bool) (last : Bool) :
    ∃ (E K : SMap) (r : Option (List Byte)), E.Perm (StrParams.Spec.run [] ops).1 ∧
      toStrO s ask last = some (r, if r.isSome then 1 else 0) ∧
      (r = some (print ((d.getD [59]).take 1) K) ∨ (r = none ∧ K = [] ∧ last = false)) ∧
      ((∀ i < E.length, ask i = true) → K = E) ∧
      ∀ i < E.length, ask i = false → (∀ j < i, ask j = true) → K.Sublist (E.drop (i + 1)) := by
  obtain ⟨g0, hd⟩ := StrParams.create_good d ok1 ok2 s0 h0
  obtain ⟨s', L, rs', a1, g, a3, a4⟩ := StrParams.run_spec ops g0 hops
  rw [hrun] at a1
  simp only [Option.some.injEq, Prod.mk.injEq] at a1
  obtain ⟨rfl, rfl⟩ := a1
  have hT : (StrParams.Spec.run [] ops).1 = texts s.heap L := by
    have := congrArg Prod.fst a4
    exact this.symm
  rw [hT, ← hd, ← a3]
  have hl : ∀ e ∈ s.map.buckets.flatten, e.key ∈ s.heap.live ∧ e.value ∈ s.heap.live := by
    intro e he
    have : kv e ∈ L := g.r.perm.mem_iff.mp (List.mem_map_of_mem he)
    exact ⟨g.mem1 this, g.mem2 this⟩
  obtain ⟨c, K, evs, k1, k2⟩ := combine_all s ask s.map hl s.map.bucketCount 0 [] [] ⟨none, 0, 0⟩
    ⟨rfl, rfl, Or.inl ⟨rfl, rfl, nofun⟩⟩ (by rw [g.r.inv.len]; omega)
  rw [List.drop_zero, List.nil_append] at k2
  have hfe : Hashmap.foreach (cfg s.heap) (combineO s ask) s.map (some ⟨none, 0, 0⟩) =
      some (some c, Hashmap.locked (cfg s.heap) evs) := by
    unfold Hashmap.foreach
    rw [k1]; rfl
  have hlen : ∀ X : FMap, (texts s.heap X).length = X.length := fun X => StrParams.texts_length _ _
  have hsub : ∀ i < (texts s.heap (s.map.buckets.flatten.map kv)).length, ask i = false → (∀ j < i, ask j = true) →
      (texts s.heap K).Sublist ((texts s.heap (s.map.buckets.flatten.map kv)).drop (i + 1)) := by
    intro i hi h1 h2
    rw [hlen] at hi
    rcases k2.kept with ⟨_, _, h⟩ | ⟨i', hi', h3, h4, h5⟩
    · rw [h i hi] at h1; cases h1
    · have : i = i' := by
        rcases Nat.lt_trichotomy i i' with h | h | h
        · rw [h4 i h] at h1; cases h1
        · exact h
        · rw [h2 i' h] at h3; cases h3
      rw [this]
      unfold texts
      rw [← List.map_drop]
      exact h5.map _
  have hfull : (∀ i < (texts s.heap (s.map.buckets.flatten.map kv)).length, ask i = true) →
      texts s.heap K = texts s.heap (s.map.buckets.flatten.map kv) := by
    intro h
    rw [hlen] at h
    rcases k2.kept with ⟨h1, _⟩ | ⟨i', hi', h3, _⟩
    · rw [h1]
    · rw [h i' hi'] at h3; cases h3
  have ht := k2.text
  have ho := k2.owned
  by_cases hK : K = []
  · rw [if_pos hK] at ht ho
    cases last with
    | true =>
      refine ⟨_, texts s.heap K, some [], g.r.perm.map _, ?_, Or.inl (by rw [hK]; rfl), hfull, hsub⟩
      unfold toStrO
      rw [hfe]
      simp only [ht, ho]
      rfl
    | false =>
      refine ⟨_, texts s.heap K, none, g.r.perm.map _, ?_, Or.inr ⟨rfl, by rw [hK]; rfl, rfl⟩, hfull, hsub⟩
      unfold toStrO
      rw [hfe]
      simp only [ht, ho]
      rfl
  · rw [if_neg hK] at ht ho
    refine ⟨_, texts s.heap K, some (print s.delim (texts s.heap K)), g.r.perm.map _, ?_, Or.inl rfl, hfull, hsub⟩
    unfold toStrO
    rw [hfe]
    simp only [ht, ho]
    rfl

/-- C91: if a value is missing (its copy was refused while a text was read), `str_params_to_str` hands NULL to
`%s`. -/
theorem to_str_of_missing_value (d : Option (List Byte)) (text : List Byte) (h0 : (0 : Byte) ∉ text)
    (hlen : text.length < 2 ^ 59) (st : Start) (hst : st.obj && st.map && st.table && st.copy)
    (askc : Nat → Oks) (hkey : ∀ n, (askc n).key = true) (k : List Byte)
    (hk : (k, none) ∈ Spec.fill askc 0 (StrParams.Spec.pairs (delimOf d) text) [])
    (ask : Nat → Bool) (hask : ∀ n, ask n = true) (last : Bool) :
    ∃ s, createStrO d text st askc = some (some s, [.obj, .map, .table]) ∧ toStrO s ask last = none := by
  obtain ⟨s, L, X, c1, g, _, _, c3, _⟩ := createStrO_good d text h0 hlen st hst askc true (fun _ => hkey) nofun
  refine ⟨s, c1, ?_⟩
  rw [← c3] at hk
  obtain ⟨p, hp, hpe⟩ := List.mem_map.mp hk
  have hp0 : p.2 = 0 := by
    have := congrArg Prod.snd hpe
    simp only at this
    by_cases h : p.2 = 0
    · exact h
    · rw [if_neg h] at this; cases this
  have hdead : StrParams.readStr s p.2 = none := by
    unfold StrParams.readStr
    rw [if_neg]
    rw [hp0]
    exact fun h => g.pos.2 0 h rfl
  have hpf : p ∈ s.map.buckets.flatten.map kv := g.r.perm.mem_iff.mpr hp
  have hf : combineO s ask = fun st k v => (true, (combineO s ask st k v).2) := by
    funext st k v
    unfold combineO
    split
    · simp only [hask]; rfl
    · rfl
  obtain ⟨evs, h1⟩ := StrParams.foreachAll_fold (fun st k v => (combineO s ask st k v).2) s.map s.map.bucketCount 0
    (some ⟨none, 0, 0⟩) (by rw [g.r.inv.len]; omega)
  have hnone : ∀ E : FMap, E.foldl (fun st p => (combineO s ask st p.1 p.2).2) none = none := by
    intro E
    induction E with
    | nil => rfl
    | cons q E ih => rw [List.foldl_cons]; exact ih
  have hfold : ∀ (E : FMap), p ∈ E → ∀ st, E.foldl (fun st p => (combineO s ask st p.1 p.2).2) st = none := by
    intro E
    induction E with
    | nil => intro h; cases h
    | cons q E ih =>
      intro h st
      rw [List.foldl_cons]
      rcases List.mem_cons.mp h with h | h
      · rw [← h]
        have : (combineO s ask st p.1 p.2).2 = none := by
          unfold combineO
          rw [hdead]
          cases st <;> cases StrParams.readStr s p.1 <;> rfl
        rw [this]; exact hnone E
      · exact ih h _
  unfold toStrO Hashmap.foreach
  rw [hf, h1, List.drop_zero, hfold _ hpf]
  rfl

/-! ### Concrete cases -/

/-- "a=1;b=2;a=3" -/
def text3 : List Byte := [97, 61, 49, 59, 98, 61, 50, 59, 97, 61, 51]

/-- The second value and the last entry are refused. -/
def some2 : Nat → Oks := fun n => if n = 1 then ⟨true, false, true, true⟩ else StrParams.allOk

example : StrParams.Spec.pairs (delimOf none) text3 = [([97], [49]), ([98], [50]), ([97], [51])] := by decide +kernel

example : ∀ q ∈ StrParams.Spec.pairs (delimOf none) text3, Spec.djb q.1 ≠ 5381 := by decide +kernel

example : Spec.fill some2 0 (StrParams.Spec.pairs (delimOf none) text3) [] = [([97], some [51]), ([98], none)] ∧
    Spec.lostAll some2 0 (StrParams.Spec.pairs (delimOf none) text3) [] = 1 := by decide +kernel

example : ((createStrO none text3 ⟨true, true, true, true⟩ some2).bind fun r => r.1.bind fun s =>
    (hasKeyO s [97]).bind fun x => (hasKeyO s [98]).map fun y => (x, y, r.2)) =
      some (true, false, [.obj, .map, .table]) := by decide +kernel

/-- A refused last value unsets `a`, which the first pair had set. -/
example : ((createStrO none text3 ⟨true, true, true, true⟩
    (fun n => if n = 2 then ⟨true, false, true, true⟩ else StrParams.allOk)).bind fun r => r.1.bind fun s =>
    (hasKeyO s [97]).bind fun x => (hasKeyO s [98]).map fun y => (x, y)) = some (false, true) := by decide +kernel

/-- A refused key: asking for "" is undefined. -/
example : ((createStrO none text3 ⟨true, true, true, true⟩
    (fun n => if n = 1 then ⟨false, true, true, true⟩ else StrParams.allOk)).bind fun r => r.1.bind fun s =>
    hasKeyO s [97]) = some true ∧ ((createStrO none text3 ⟨true, true, true, true⟩
    (fun n => if n = 1 then ⟨false, true, true, true⟩ else StrParams.allOk)).bind fun r => r.1.bind fun s =>
    hasKeyO s []) = none := by decide +kernel

/-- Two pairs in different buckets; the first `asprintf` is refused: the text silently lists the other. -/
example : ∃ s, StrParams.create none true true = some (some s) ∧
    ((StrParams.run s [.add [97] [49] StrParams.allOk, .add [98] [50] StrParams.allOk]).bind fun r =>
      toStrO r.1 (fun n => n ≠ 0) true) = some (some [97, 61, 49], 1) := ⟨_, rfl, by decide +kernel⟩

example : ∃ s, StrParams.create none true true = some (some s) ∧
    ((StrParams.run s [.add [97] [49] StrParams.allOk, .add [98] [50] StrParams.allOk]).bind fun r =>
      toStrO r.1 (fun n => n ≠ 1) false) = some (none, 0) := ⟨_, rfl, by decide +kernel⟩

end Verif.StrParamsOom
