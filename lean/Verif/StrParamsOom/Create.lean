import Verif.StrParamsOom.Parse
/-!
# str_params when memory runs out (C90)
-/
namespace Verif.StrParamsOom
open Verif.Hashmap (Ptr Cfg Map Entry Ev R Inv kv hashKey)
open Verif.Hashmap.Spec (FMap GoodCfg)
open Verif.StrParams (Heap St Oks cfg good_cfg R_congr)
open Spec

/-- The delimiter in use: the first character of the one given, ';' by default. -/
def delimOf (d : Option (List Byte)) : List Byte := (d.getD [59]).take 1

/-- C90: `str_params_create_str` is refused one of its first four requests: it returns NULL and keeps
nothing. -/
theorem refused_start_returns_null (d : Option (List Byte)) (text : List Byte) (st : Start) (ask : Nat → Oks)
    (h : ¬ (st.obj && st.map && st.table && st.copy)) : createStrO d text st ask = some (none, []) := by
  unfold createStrO
  by_cases h3 : (st.obj && st.map && st.table) = true
  · obtain ⟨s, c1, g, _⟩ := createO_good d st h3
    rw [c1]
    have hc : st.copy = false := by
      cases hx : st.copy
      · rfl
      · rw [h3, hx] at h; simp at h
    simp only
    rw [if_pos hc]
    obtain ⟨h', k1, _⟩ := destroy_specO g
    unfold destroyO
    rw [k1]
    rfl
  · rw [createO_null d st h3]

/-- The state `createStrO` reaches when the first four requests are granted. -/
theorem createStrO_good (d : Option (List Byte)) (text : List Byte) (h0 : (0 : Byte) ∉ text)
    (hlen : text.length < 2 ^ 59) (st : Start) (hst : st.obj && st.map && st.table && st.copy)
    (ask : Nat → Oks) (b : Bool) (hb1 : b = true → ∀ n, (ask n).key = true)
    (hb2 : b = false → ∀ q ∈ StrParams.Spec.pairs (delimOf d) text, djb q.1 ≠ 5381) :
    ∃ s L X, createStrO d text st ask = some (some s, [.obj, .map, .table]) ∧ GoodO s L X ∧
      Quiet b s.heap L ∧ s.delim = delimOf d ∧
      omap s.heap L = fill ask 0 (StrParams.Spec.pairs (delimOf d) text) [] ∧
      real X = lostAll ask 0 (StrParams.Spec.pairs (delimOf d) text) [] := by
  rw [Bool.and_eq_true] at hst
  obtain ⟨s, c1, g, hd⟩ := createO_good d st hst.1
  unfold createStrO
  rw [c1]
  simp only
  rw [if_neg (by simp [hst.2])]
  have hd' : s.delim = delimOf d := hd
  obtain ⟨s', L', X', k1, k2, k3, k4, k5, k6⟩ := parse_loopO ask b hb1 (text.length + 2) 0 (text ++ [0]) 0 text []
    s [] [] rfl h0 (by omega) g ⟨fun _ => by simp, fun _ => by simp⟩ (by rw [hd']; exact hb2)
    (by simpa using hlen)
  rw [hd'] at k5 k6
  refine ⟨s', L', X', ?_, k2, k4, k3.trans hd', k5, by rw [k6]; show 0 + _ = _; rw [Nat.zero_add]; rfl⟩
  cases hsk : strtokR (text ++ [0]) 0 s.delim with
  | none => rw [hsk] at k1; cases k1
  | some x =>
    obtain ⟨m, tok, save⟩ := x
    rw [hsk] at k1
    simp only at k1 ⊢
    rw [k1]; rfl

/-- C90: otherwise it returns an object, whatever other requests are refused - provided every key could be
copied or no key in the text has the hash of NULL (5381).  The object gives the value `fill` describes for
every key, and destroying it leaves exactly the blocks `lostAll` counts. -/
theorem create_str_under_refusals (d : Option (List Byte)) (text : List Byte) (h0 : (0 : Byte) ∉ text)
    (hlen : text.length < 2 ^ 59) (st : Start) (hst : st.obj && st.map && st.table && st.copy)
    (ask : Nat → Oks) (hc : (∀ n, (ask n).key = true) ∨
      ∀ q ∈ StrParams.Spec.pairs (delimOf d) text, djb q.1 ≠ 5381) :
    ∃ s, createStrO d text st ask = some (some s, [.obj, .map, .table]) ∧
      (∀ k, ((∀ n, (ask n).key = true) ∨ djb k ≠ 5381) →
        hasKeyO s k = some (value (fill ask 0 (StrParams.Spec.pairs (delimOf d) text) []) k).isSome ∧
        ∀ out size, size ≤ out.length → getStrO s k out size =
          some (match value (fill ask 0 (StrParams.Spec.pairs (delimOf d) text) []) k with
            | none => (out, -2)
            | some v => if size < v.length + 1 then (out, -12) else (out.front (v ++ [0]), 0))) ∧
      ∃ h', destroyO s [.obj, .map, .table] = some (h', []) ∧
        h'.live.length = lostAll ask 0 (StrParams.Spec.pairs (delimOf d) text) [] := by
  obtain ⟨b, hb1, hb2, hb3⟩ : ∃ b : Bool, (b = true → ∀ n, (ask n).key = true) ∧
      (b = false → ∀ q ∈ StrParams.Spec.pairs (delimOf d) text, djb q.1 ≠ 5381) ∧
      ((∀ n, (ask n).key = true) → b = true) := by
    by_cases hk : ∀ n, (ask n).key = true
    · exact ⟨true, fun _ => hk, nofun, fun _ => rfl⟩
    · exact ⟨false, nofun, fun _ => hc.resolve_left hk, fun h => absurd h hk⟩
  obtain ⟨s, L, X, c1, g, q, _, c3, c4⟩ := createStrO_good d text h0 hlen st hst ask b hb1 hb2
  refine ⟨s, c1, ?_, ?_⟩
  · intro k hk
    have hk' : b = true ∨ djb k ≠ 5381 := hk.imp_left hb3
    rw [← c3]
    exact ⟨hasKeyO_spec g b q k hk', fun out size hs => getStrO_spec g b q k hk' out size hs⟩
  · obtain ⟨h', e1, e2⟩ := destroy_specO g
    refine ⟨h', ?_, by rw [e2, c4]⟩
    unfold destroyO
    rw [e1]; rfl

/-! ### What the description means -/

theorem find_map_same (T : OMap) (k : List Byte) (w : Option (List Byte)) (k' : List Byte) (hk : known T k) :
    value (T.map fun p => if p.1 == k then (k, w) else p) k' = if k' = k then w else value T k' := by
  unfold value
  rw [List.find?_map]
  have e : (fun (p : List Byte × Option (List Byte)) => p.1 == k') ∘
      (fun p => if p.1 == k then (k, w) else p) = fun p => p.1 == k' := by
    funext p
    simp only [Function.comp]
    by_cases h : p.1 = k
    · simp [h]
    · simp [h]
  rw [e]
  unfold known at hk
  by_cases hkk : k' = k
  · rw [if_pos hkk, hkk]
    rw [← List.isSome_find?] at hk
    cases hf : T.find? fun p => p.1 == k with
    | none => rw [hf] at hk; cases hk
    | some q =>
      have := List.find?_some hf
      simp only [beq_iff_eq] at this
      simp [this]
  · rw [if_neg hkk]
    cases hf : T.find? fun p => p.1 == k' with
    | none => rfl
    | some q =>
      have hq := List.find?_some hf
      simp only [beq_iff_eq] at hq
      have : q.1 ≠ k := fun h => hkk (hq.symm.trans h)
      simp [this]

theorem value_append (T : OMap) (k : List Byte) (w : Option (List Byte)) (k' : List Byte)
    (hk : known T k = false) :
    value (T ++ [(k, w)]) k' = if k' = k then w else value T k' := by
  unfold value
  rw [List.find?_append]
  unfold known at hk
  by_cases hkk : k' = k
  · rw [if_pos hkk, hkk]
    have : T.find? (fun p => p.1 == k) = none := by
      cases hf : T.find? fun p => p.1 == k with
      | none => rfl
      | some q =>
        rw [← List.isSome_find?, hf] at hk; cases hk
    rw [this]; simp
  · rw [if_neg hkk]
    cases hf : T.find? fun p => p.1 == k' with
    | none => simp [Ne.symm hkk]
    | some q => rfl

/-- Reading one pair, as seen through the values. -/
theorem value_store (T : OMap) (k v : List Byte) (ok : Oks) (k' : List Byte) :
    value (store T k v ok) k' =
      if k' = nameOf k ok ∧ (known T (nameOf k ok) = true ∨ ok.entry = true) then valueOf v ok
      else value T k' := by
  unfold store
  by_cases h1 : known T (nameOf k ok) = true
  · rw [if_pos h1, find_map_same _ _ _ _ h1]
    by_cases h2 : k' = nameOf k ok
    · rw [if_pos h2, if_pos ⟨h2, Or.inl h1⟩]
    · rw [if_neg h2, if_neg (fun h => h2 h.1)]
  · rw [if_neg h1]
    have h1' : known T (nameOf k ok) = false := by simpa using h1
    by_cases h3 : ok.entry = true
    · rw [if_pos h3, value_append _ _ _ _ h1']
      by_cases h2 : k' = nameOf k ok
      · rw [if_pos h2, if_pos ⟨h2, Or.inr h3⟩]
      · rw [if_neg h2, if_neg (fun h => h2 h.1)]
    · rw [if_neg h3, if_neg (fun h => h.2.elim h1 h3)]

/-- A non-empty name has only values the text gives it. -/
theorem fill_from_text (ask : Nat → Oks) (ps : List (List Byte × List Byte)) : ∀ (n : Nat) (T : OMap)
    (k v : List Byte), k ≠ [] → value (fill ask n ps T) k = some v → (k, v) ∈ ps ∨ value T k = some v := by
  induction ps with
  | nil => intro n T k v _ h; exact Or.inr h
  | cons p ps ih =>
    intro n T k v hk h
    obtain ⟨a, c⟩ := p
    rcases ih (n + 1) _ k v hk h with h1 | h1
    · exact Or.inl (by simp [h1])
    · rw [value_store] at h1
      split at h1
      · rename_i h2
        left
        have hn : (ask n).key = true := by
          cases hx : (ask n).key
          · rw [nameOf, hx] at h2; exact absurd h2.1 hk
          · rfl
        have hv : (ask n).val = true := by
          cases hx : (ask n).val
          · rw [valueOf, hx] at h1; cases h1
          · rfl
        have e1 := h2.1
        rw [nameOf, hn] at e1
        rw [valueOf, hv] at h1
        simp only [if_true] at e1 h1
        cases h1
        rw [e1]; simp
      · exact Or.inr h1

/-- C90: whatever is refused, `str_params_get_str` never invents a value: when it succeeds for a key with
another hash than NULL's, the text contains that key with that value. -/
theorem values_come_from_text (d : Option (List Byte)) (text : List Byte) (h0 : (0 : Byte) ∉ text)
    (hlen : text.length < 2 ^ 59) (st : Start) (ask : Nat → Oks)
    (hc : (∀ n, (ask n).key = true) ∨ ∀ q ∈ StrParams.Spec.pairs (delimOf d) text, djb q.1 ≠ 5381)
    (s : St) (held : List Blk) (hs : createStrO d text st ask = some (some s, held)) (k : List Byte)
    (hk : djb k ≠ 5381) (out out' : Mem) (size : Nat) (hsz : size ≤ out.length)
    (hget : getStrO s k out size = some (out', 0)) :
    ∃ v, (k, v) ∈ StrParams.Spec.pairs (delimOf d) text ∧ out' = out.front (v ++ [0]) := by
  have hst : (st.obj && st.map && st.table && st.copy) = true := by
    cases hx : (st.obj && st.map && st.table && st.copy)
    · rw [refused_start_returns_null d text st ask (by simp [hx])] at hs
      cases hs
    · rfl
  obtain ⟨s', c1, c2, _⟩ := create_str_under_refusals d text h0 hlen st hst ask hc
  rw [hs] at c1
  simp only [Option.some.injEq, Prod.mk.injEq] at c1
  obtain ⟨rfl, _⟩ := c1
  have hg := (c2 k (Or.inr hk)).2 out size hsz
  rw [hget] at hg
  have hk0 : k ≠ [] := fun h => hk (by rw [h]; rfl)
  cases hv : value (fill ask 0 (StrParams.Spec.pairs (delimOf d) text) []) k with
  | none => rw [hv] at hg; simp at hg
  | some v =>
    rw [hv] at hg
    simp only [Option.some.injEq] at hg
    split at hg
    · simp at hg
    · simp only [Prod.mk.injEq, and_true] at hg
      rcases fill_from_text ask _ 0 [] k v hk0 hv with h | h
      · exact ⟨v, h, hg⟩
      · cases h

theorem fill_append (ask : Nat → Oks) (a c : List (List Byte × List Byte)) : ∀ (n : Nat) (T : OMap),
    fill ask n (a ++ c) T = fill ask (n + a.length) c (fill ask n a T) := by
  induction a with
  | nil => intro n T; rfl
  | cons p a ih =>
    intro n T
    obtain ⟨k, v⟩ := p
    show fill ask (n + 1) (a ++ c) _ = fill ask (n + (a.length + 1)) c (fill ask (n + 1) a _)
    rw [ih, show n + 1 + a.length = n + (a.length + 1) by omega]

/-- Pairs under other names do not matter. -/
theorem fill_other (ask : Nat → Oks) (ps : List (List Byte × List Byte)) : ∀ (n : Nat) (T : OMap)
    (k : List Byte), k ≠ [] → (∀ p ∈ ps, p.1 ≠ k) → value (fill ask n ps T) k = value T k := by
  induction ps with
  | nil => intro n T k _ _; rfl
  | cons p ps ih =>
    intro n T k hk h
    obtain ⟨a, c⟩ := p
    show value (fill ask (n + 1) ps _) k = _
    rw [ih (n + 1) _ k hk (fun p hp => h p (by simp [hp])), value_store, if_neg]
    intro h2
    have h3 := h2.1
    unfold nameOf at h3
    split at h3
    · exact h (a, c) (by simp) h3.symm
    · exact hk h3

/-- C90: a refused value is not an error: the key is then unset, even if an earlier pair of the text had set
it. -/
theorem refused_value_unsets (d : Option (List Byte)) (text : List Byte) (h0 : (0 : Byte) ∉ text)
    (hlen : text.length < 2 ^ 59) (st : Start) (hst : st.obj && st.map && st.table && st.copy)
    (ask : Nat → Oks) (hkey : ∀ n, (ask n).key = true) (hent : ∀ n, (ask n).entry = true)
    (A B : List (List Byte × List Byte)) (k v : List Byte) (hk : k ≠ [])
    (hp : StrParams.Spec.pairs (delimOf d) text = A ++ (k, v) :: B) (hB : ∀ p ∈ B, p.1 ≠ k)
    (hv : (ask A.length).val = false) :
    ∃ s, createStrO d text st ask = some (some s, [.obj, .map, .table]) ∧ hasKeyO s k = some false := by
  obtain ⟨s, c1, c2, _⟩ := create_str_under_refusals d text h0 hlen st hst ask (Or.inl hkey)
  refine ⟨s, c1, ?_⟩
  rw [(c2 k (Or.inl hkey)).1, hp, fill_append]
  show some (value (fill ask (0 + A.length + 1) B _) k).isSome = _
  rw [fill_other _ _ _ _ _ hk hB, Nat.zero_add, value_store, if_pos ⟨by rw [nameOf, hkey]; rfl, Or.inr (hent _)⟩]
  rw [valueOf, hv]; rfl

/-- C90: with everything granted the values are those of the text, later pairs first (as C35 says). -/
theorem all_granted_last_wins (d : Option (List Byte)) (text : List Byte) (h0 : (0 : Byte) ∉ text)
    (hlen : text.length < 2 ^ 59) (st : Start) (hst : st.obj && st.map && st.table && st.copy)
    (ask : Nat → Oks) (hkey : ∀ n, (ask n).key = true) (hval : ∀ n, (ask n).val = true)
    (hent : ∀ n, (ask n).entry = true)
    (A B : List (List Byte × List Byte)) (k v : List Byte) (hk : k ≠ [])
    (hp : StrParams.Spec.pairs (delimOf d) text = A ++ (k, v) :: B) (hB : ∀ p ∈ B, p.1 ≠ k)
    (out : Mem) (hout : v.length + 1 ≤ out.length) :
    ∃ s, createStrO d text st ask = some (some s, [.obj, .map, .table]) ∧
      getStrO s k out out.length = some (out.front (v ++ [0]), 0) := by
  obtain ⟨s, c1, c2, _⟩ := create_str_under_refusals d text h0 hlen st hst ask (Or.inl hkey)
  refine ⟨s, c1, ?_⟩
  rw [(c2 k (Or.inl hkey)).2 out _ (Nat.le_refl _), hp, fill_append]
  have : value (fill ask (0 + A.length) ((k, v) :: B) (fill ask 0 A [])) k = some v := by
    show value (fill ask (0 + A.length + 1) B _) k = _
    rw [fill_other _ _ _ _ _ hk hB, Nat.zero_add, value_store,
      if_pos ⟨by rw [nameOf, hkey]; rfl, Or.inr (hent _)⟩, valueOf, hval]
    rfl
  rw [this]
  simp only
  rw [if_neg (by omega)]

/-! ### NULL keys -/

theorem known_map (T : OMap) (k k' : List Byte) (w : Option (List Byte)) (h : known T k' = true) :
    known (T.map fun p => if p.1 == k then (k, w) else p) k' = true := by
  unfold known at h ⊢
  rw [List.any_eq_true] at h ⊢
  obtain ⟨p, hp, he⟩ := h
  refine ⟨_, List.mem_map_of_mem hp, ?_⟩
  split
  · rename_i h2
    simp only [beq_iff_eq] at h2 he ⊢
    rw [← h2]; exact he
  · exact he

theorem known_store (T : OMap) (k v : List Byte) (ok : Oks) (k' : List Byte) (h : known T k' = true) :
    known (store T k v ok) k' = true := by
  unfold store
  split
  · exact known_map T _ _ _ h
  · split
    · unfold known at h ⊢; rw [List.any_append, h]; rfl
    · exact h

theorem known_fill (ask : Nat → Oks) (ps : List (List Byte × List Byte)) : ∀ (n : Nat) (T : OMap) (k : List Byte),
    known T k = true → known (fill ask n ps T) k = true := by
  induction ps with
  | nil => intro n T k h; exact h
  | cons p ps ih =>
    intro n T k h
    exact ih (n + 1) _ k (known_store T _ _ _ k h)

theorem known_nameless (T : OMap) (k v : List Byte) (ok : Oks) (hk : ok.key = false) (he : ok.entry = true) :
    known (store T k v ok) [] = true := by
  have hn : nameOf k ok = [] := by unfold nameOf; rw [hk]; rfl
  unfold store
  rw [hn]
  split
  · rename_i h; exact known_map T _ _ _ h
  · unfold known
    rw [List.any_append]; simp

/-- C90: once a key could not be copied (but its entry could be made), asking for the empty key compares a
NULL pointer with it: undefined. -/
theorem refused_key_breaks_empty_key (d : Option (List Byte)) (text : List Byte) (h0 : (0 : Byte) ∉ text)
    (hlen : text.length < 2 ^ 59) (st : Start) (hst : st.obj && st.map && st.table && st.copy)
    (ask : Nat → Oks) (hc : ∀ q ∈ StrParams.Spec.pairs (delimOf d) text, djb q.1 ≠ 5381)
    (n : Nat) (hn : n < (StrParams.Spec.pairs (delimOf d) text).length) (hk : (ask n).key = false)
    (he : (ask n).entry = true) :
    ∃ s, createStrO d text st ask = some (some s, [.obj, .map, .table]) ∧ hasKeyO s [] = none := by
  obtain ⟨s, L, X, c1, g, q, _, c3, c4⟩ := createStrO_good d text h0 hlen st hst ask false nofun (fun _ => hc)
  refine ⟨s, c1, ?_⟩
  have hknown : known (omap s.heap L) [] = true := by
    rw [c3]
    generalize StrParams.Spec.pairs (delimOf d) text = ps at hn
    have hps : ps = ps.take n ++ (ps[n].1, ps[n].2) :: ps.drop (n + 1) := by simp
    rw [hps, fill_append]
    have hl : (ps.take n).length = n := by rw [List.length_take]; omega
    rw [hl, Nat.zero_add]
    exact known_fill ask (ps.drop (n + 1)) (n + 1) _ _ (known_nameless _ _ _ _ hk he)
  unfold known omap at hknown
  rw [List.any_map, List.any_eq_true] at hknown
  obtain ⟨p, hp, hpe⟩ := hknown
  simp only [Function.comp, beq_iff_eq] at hpe
  have hp0 : p.1 = 0 := Classical.byContradiction fun h => g.named p hp h hpe
  have hold1 : ∀ p ∈ L, (s.heap.name []).2.txt p.1 = s.heap.txt p.1 :=
    fun p hp => StrParams.name_txt_old (g.lt1 hp)
  have r' := R_congr (h' := (s.heap.name []).2) g.r hold1
  have hnt := StrParams.name_txt_new s.heap []
  obtain ⟨e, hec, hek⟩ := mem_chain r' (p := (s.heap.name []).1) hp (by rw [hold1 p hp, hpe, hnt])
  have hek1 : e.key = 0 := by rw [← hp0, ← hek]; rfl
  have hs : searchOk (s.heap.name []).2 s.map (s.heap.name []).1 = false := by
    unfold searchOk
    refine walkOk_not _ _ _ _ e hec hek1 ?_ (fun h => g.pos.2 0 h rfl) ?_
    · rw [(chain_mem r' hec).2, hashKey_eq_iff]
      rw [hek1, hnt]
      have : (s.heap.name []).2.txt 0 = [] := by
        rw [StrParams.name_txt_old g.pos.1]; exact g.txt0
      rw [this]
    · intro e' he' h
      obtain ⟨m1, _⟩ := chain_mem r' he'
      rcases h with h | ⟨_, h2, h3⟩
      · have := g.lt1 m1
        have h' : e'.key = s.heap.next := h
        have h'' : e'.key < s.heap.next := this
        rw [h'] at h''; exact absurd h'' (Nat.lt_irrefl _)
      · rw [hnt] at h3
        have h4 : (s.heap.name []).2.txt (kv e').1 = [] := h3
        rw [hold1 _ m1] at h4
        exact g.named _ m1 (g.pos.2 _ h2) h4
  unfold hasKeyO lookupO
  simp only
  rw [hs]
  rfl

/-- "hLHinm": a key with the hash of NULL. -/
def twin : List Byte := [104, 76, 72, 105, 110, 109]

example : djb twin = 5381 := by decide +kernel

/-- C90: a text, and refusal of one key copy, for which `str_params_create_str` itself compares with NULL. -/
theorem refused_key_can_crash_parsing :
    ∃ text ask, (∀ n, n ≠ 1 → ask n = StrParams.allOk) ∧ (ask 1).entry = true ∧
      createStrO none text ⟨true, true, true, true⟩ ask = none :=
  ⟨twin ++ [61, 49, 59, 98, 61, 50], fun n => if n = 1 then ⟨false, true, true, true⟩ else StrParams.allOk,
    fun n hn => by simp only [if_neg hn], rfl, by decide +kernel⟩

end Verif.StrParamsOom
