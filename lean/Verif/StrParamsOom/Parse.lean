import Verif.StrParamsOom.Lemmas
/-!
# str_params under refusals: reading a text, asking, destroying
-/
namespace Verif.StrParamsOom
open Verif.Hashmap (Ptr Cfg Map Entry Ev R Inv kv hashKey)
open Verif.Hashmap.Spec (FMap GoodCfg)
open Verif.StrParams (Heap St Oks cfg good_cfg R_congr)
open Spec

/-- Either no key is NULL, or no key has NULL's hash. -/
def Quiet (b : Bool) (h : Heap) (L : FMap) : Prop :=
  (b = true → ∀ p ∈ L, p.1 ≠ 0) ∧ (b = false → ∀ p ∈ L, p.1 ≠ 0 → djb (h.txt p.1) ≠ 5381)

/-- How many of these pointers are not NULL. -/
def real (X : List Ptr) : Nat := (X.filter (· ≠ 0)).length

theorem real_cons (p : Ptr) (X : List Ptr) : real (p :: X) = (if p = 0 then 0 else 1) + real X := by
  unfold real
  by_cases h : p = 0
  · simp [h]
  · simp [h]; omega

theorem omap_setVal (h h' : Heap) (ht : h'.txt = h.txt) (L : FMap) (kp vp : Ptr) :
    omap h' (Hashmap.Spec.setVal (cfg h).fnEq L kp vp) =
      (omap h L).map (fun p => if p.1 == h.txt kp then (h.txt kp, if vp = 0 then none else some (h.txt vp)) else p) := by
  unfold omap Hashmap.Spec.setVal
  rw [List.map_map, List.map_map, ht]
  apply List.map_congr_left
  intro p _
  simp only [Function.comp, cfg]
  by_cases hp : h.txt p.1 = h.txt kp
  · simp [hp]
  · simp [hp]

/-- One pair. -/
theorem putPairO_spec {s : St} {L : FMap} {X : List Ptr} (g : GoodO s L X) (b : Bool)
    (hb : Quiet b s.heap L) (k v : List Byte) (hk : (0 : Byte) ∉ k) (hk1 : k ≠ []) (hv : (0 : Byte) ∉ v)
    (ok : Oks) (hb1 : b = true → ok.key = true) (hb2 : b = false → djb k ≠ 5381) (hsz : L.length < 2 ^ 59) :
    ∃ s' L' X', putPairO s (k, v) ok = some s' ∧ GoodO s' L' X' ∧ s'.delim = s.delim ∧
      Quiet b s'.heap L' ∧ omap s'.heap L' = store (omap s.heap L) k v ok ∧
      real X' = real X + lost (omap s.heap L) k ok ∧ L'.length ≤ L.length + 1 := by
  obtain ⟨g1, t1, x1, n1, o1, l1⟩ := g.dup k ok.key hk
  obtain ⟨g2, t2, x2, n2, o2, l2⟩ := g1.dup v ok.val hv
  simp only at g2 t2 x2 n2 o2 l2
  unfold putPairO
  simp only
  generalize hh1 : (dupO s.heap k ok.key).2 = h1 at *
  generalize hkp : (dupO s.heap k ok.key).1 = kp at *
  generalize hh2 : (dupO h1 v ok.val).2 = h2 at *
  generalize hvp : (dupO h1 v ok.val).1 = vp at *
  have hkt : h2.txt kp = nameOf k ok := by rw [o2 kp l1, x1]; rfl
  have hk0 : kp = 0 ↔ ok.key = false := by
    rw [n1]
    cases ok.key
    · simp
    · simpa using Nat.ne_of_gt g.pos.1
  have hv0 : vp = 0 ↔ ok.val = false := by
    rw [n2]
    cases ok.val
    · simp
    · simpa using Nat.ne_of_gt g1.pos.1
  have hvt : (if vp = 0 then none else some (h2.txt vp)) = valueOf v ok := by
    unfold valueOf
    rw [x2]
    cases hv : ok.val with
    | false => rw [if_pos (hv0.mpr hv)]; rfl
    | true => rw [if_neg (fun h => by rw [hv0.mp h] at hv; cases hv)]; rfl
  have hold : ∀ p ∈ L, h2.txt p.1 = s.heap.txt p.1 := fun p hp => by
    rw [o2 _ (Nat.lt_of_lt_of_le (g.lt1 hp) ?_), o1 _ (g.lt1 hp)]
    rw [← hh1]
    unfold dupO
    split
    · exact Nat.le_succ _
    · exact Nat.le_refl _
  have hsafe : ∀ p ∈ L, p.1 ≠ kp → djb (h2.txt p.1) = djb (h2.txt kp) → p.1 ≠ 0 ∧ kp ≠ 0 := by
    intro p hp hne heq
    cases b with
    | true => exact ⟨hb.1 rfl p hp, fun h => by rw [hk0, hb1 rfl] at h; cases h⟩
    | false =>
      rw [hkt] at heq
      by_cases hkk : ok.key = true
      · have hkn : kp ≠ 0 := fun h => by rw [hk0, hkk] at h; cases h
        refine ⟨fun h0 => ?_, hkn⟩
        have hz : h2.txt p.1 = [] := by rw [h0]; exact g2.txt0
        rw [hz] at heq
        have : nameOf k ok = k := by unfold nameOf; rw [hkk]; rfl
        rw [this, djb_nil] at heq
        exact hb2 rfl heq.symm
      · have hkf : ok.key = false := by simpa using hkk
        have : nameOf k ok = [] := by unfold nameOf; rw [hkf]; rfl
        rw [this, djb_nil, hold p hp] at heq
        have hpz : p.1 ≠ 0 := fun h => hne (h.trans (hk0.mpr hkf).symm)
        exact absurd heq (hb.2 rfl p hp hpz)
  have hname : kp ≠ 0 → h2.txt kp ≠ [] := by
    intro h
    rw [hkt]
    unfold nameOf
    have : ok.key = true := by
      cases hx : ok.key
      · exact absurd (hk0.mpr hx) h
      · rfl
    rw [this]; exact hk1
  obtain ⟨m', h', L', X', p1, p2, p3, p4, p5⟩ := mapPutO_spec g2 ok hname hsafe
  simp only at p1 p2 p3 p4 p5
  rw [p1]
  have hq : Quiet b h' L' := by
    refine ⟨fun hbt p hp => ?_, fun hbf p hp h0 => ?_⟩
    · rcases p4 p hp with h | ⟨q, hq, h⟩
      · rw [h]; intro h; rw [hk0, hb1 hbt] at h; cases h
      · rw [← h]; exact hb.1 hbt q hq
    · rw [p3]
      rcases p4 p hp with h | ⟨q, hq, h⟩
      · rw [h, hkt]
        unfold nameOf
        have : ok.key = true := by
          cases hx : ok.key
          · rw [h] at h0; exact absurd (hk0.mpr hx) h0
          · rfl
        rw [this]; exact hb2 hbf
      · rw [← h, hold q hq]; exact hb.2 hbf q hq (by rw [h]; exact h0)
  rw [hkt, t2, t1] at p5
  have rk : (if kp = 0 then 0 else 1) = ok.key.toNat := by
    cases hx : ok.key
    · rw [if_pos (hk0.mpr hx)]; rfl
    · rw [if_neg (fun h => by rw [hk0.mp h] at hx; cases hx)]; rfl
  have rv : (if vp = 0 then 0 else 1) = ok.val.toNat := by
    cases hx : ok.val
    · rw [if_pos (hv0.mpr hx)]; rfl
    · rw [if_neg (fun h => by rw [hv0.mp h] at hx; cases hx)]; rfl
  refine ⟨_, L', X', rfl, p2, rfl, hq, ?_⟩
  simp only
  unfold store lost
  rcases p5 with ⟨q1, q2, q3⟩ | ⟨q1, q2, q3, q4⟩ | ⟨q1, q2, q3, q4⟩
  · rw [if_pos q1, if_pos q1, q3, omap_setVal h2 h' p3, hkt, hvt, t2, t1, q2, real_cons, rk]
    exact ⟨rfl, by omega, by simp [Hashmap.Spec.setVal]⟩
  · rw [q1, q2.1, q3, q4]
    simp only [Bool.false_eq_true, if_false, if_true]
    refine ⟨?_, by omega, by simp⟩
    have : omap h' (L ++ [(kp, vp)]) = omap h2 L ++ [(h2.txt kp, if vp = 0 then none else some (h2.txt vp))] := by
      unfold omap; rw [p3]; simp
    rw [this, hkt, hvt, t2, t1]
  · have hne : ok.entry = false := by
      cases hx : ok.entry
      · rfl
      · exact absurd ⟨hx, hsz⟩ q2
    rw [q1, hne, q3, q4]
    simp only [Bool.false_eq_true, if_false, real_cons, rk, rv]
    refine ⟨?_, by omega, by omega⟩
    rw [← t1, ← t2]
    unfold omap; rw [p3]

theorem pairOf_ne {t k v : List Byte} (ht : t ≠ []) (h : StrParams.Spec.pairOf t = some (k, v)) : k ≠ [] := by
  unfold StrParams.Spec.pairOf at h
  cases t with
  | nil => exact absurd rfl ht
  | cons c r =>
    split at h
    · cases h
    · rename_i hc
      simp only [Option.some.injEq, Prod.mk.injEq] at h
      rw [← h.1, List.takeWhile_cons]
      have : c ≠ 61 := by simpa using hc
      simp [this]

/-- The parsing loop, from the point where `strtok_r` is called. -/
theorem parse_loopO (ask : Nat → Oks) (b : Bool) (hb1 : b = true → ∀ n, (ask n).key = true) (fuel : Nat) :
    ∀ (n : Nat) (m : Mem) (p : Nat) (r after : List Byte) (s : St) (L : FMap)
    (X : List Ptr), m.drop p = r ++ 0 :: after → (0 : Byte) ∉ r → r.length < fuel → GoodO s L X →
    Quiet b s.heap L → (b = false → ∀ q ∈ StrParams.Spec.pairs s.delim r, djb q.1 ≠ 5381) →
    L.length + r.length < 2 ^ 59 →
    ∃ s' L' X', (match strtokR m p s.delim with
        | none => none
        | some (m, tok, save) => parseLoopO ask fuel n m tok save s) = some s' ∧ GoodO s' L' X' ∧
      s'.delim = s.delim ∧ Quiet b s'.heap L' ∧
      omap s'.heap L' = fill ask n (StrParams.Spec.pairs s.delim r) (omap s.heap L) ∧
      real X' = real X + lostAll ask n (StrParams.Spec.pairs s.delim r) (omap s.heap L) := by
  induction fuel with
  | zero => intro n m p r after s L X _ _ h; omega
  | succ fuel ih =>
    intro n m p r after s L X hm h0 hr g hq hd hsz
    rcases strtokR_spec s.delim hm h0 with ⟨h1, h2⟩ | ⟨tok, r', m', t, p', h1, h2, _, _, _, _, h7, h8, h9, h10⟩
    · rw [h2]
      have : StrParams.Spec.pairs s.delim r = [] := by simp [StrParams.Spec.pairs, h1]
      rw [this]
      exact ⟨s, L, X, rfl, g, rfl, hq, rfl, rfl⟩
    · rw [h2]
      simp only
      have hne : tok ≠ [] := StrParams.tokens_ne s.delim r tok (by rw [h1]; simp)
      have ht0 : (0 : Byte) ∉ tok := StrParams.cstr_no0 h9
      have hpairs : StrParams.Spec.pairs s.delim r =
          (StrParams.Spec.pairOf tok).toList ++ StrParams.Spec.pairs s.delim r' := by
        unfold StrParams.Spec.pairs
        rw [h1, List.filterMap_cons]
        cases StrParams.Spec.pairOf tok <;> rfl
      unfold parseLoopO
      simp only [h9]
      rw [if_neg hne, StrParams.splitPair_eq tok hne]
      rw [hpairs] at hd
      cases hp : StrParams.Spec.pairOf tok with
      | none =>
        rw [hp] at hd
        simp only
        rw [hpairs, hp]
        exact ih n m' p' r' after s L X h7 h8 (by omega) g hq hd (by omega)
      | some q =>
        obtain ⟨k, v⟩ := q
        rw [hp] at hd
        obtain ⟨hk0, hv0⟩ := StrParams.pairOf_no0 ht0 hp
        obtain ⟨s1, L1, X1, a1, a2, a3, a4, a5, a6, a7⟩ := putPairO_spec g b hq k v hk0 (pairOf_ne hne hp) hv0
          (ask n) (fun h => hb1 h n) (fun h => hd h (k, v) (by simp)) (by omega)
        simp only
        rw [a1]
        simp only
        obtain ⟨s', L', X', k1, k2, k3, k4, k5, k6⟩ := ih (n + 1) m' p' r' after s1 L1 X1 h7 h8 (by omega) a2
          a4 (by rw [a3]; exact fun h q hq => hd h q (by simp [hq])) (by omega)
        rw [hpairs, hp]
        refine ⟨s', L', X', k1, k2, by rw [k3, a3], k4, ?_, ?_⟩
        · rw [k5, a3, a5]; rfl
        · rw [k6, a3, a6, a5]
          exact Nat.add_assoc _ _ _

theorem createO_good (d : Option (List Byte)) (st : Start) (h : st.obj && st.map && st.table) :
    ∃ s, createO d st = some (some s, [.obj, .map, .table]) ∧ GoodO s [] [] ∧ s.delim = (d.getD [59]).take 1 := by
  simp only [Bool.and_eq_true] at h
  obtain ⟨⟨h1, h2⟩, h3⟩ := h
  obtain ⟨r, c1, _, c3⟩ := Hashmap.create_terminates (cfg ⟨fun _ => [], [], 1⟩) 16 true true
  obtain ⟨s, hs⟩ : ∃ s, StrParams.create d true true = some (some s) := by
    unfold StrParams.create
    rw [c1]
    cases r with
    | none => simp at c3
    | some m => exact ⟨_, rfl⟩
  obtain ⟨g, hd⟩ := StrParams.create_good d true true s hs
  have hheap : s.heap = ⟨fun _ => [], [], 1⟩ := by
    unfold StrParams.create at hs
    split at hs
    · cases hs
    · cases hs
    · simp only [Option.some.injEq] at hs
      rw [← hs]
  refine ⟨s, ?_, ⟨g.r, ?_, g.nodup, g.lt, g.pos, g.no0, by rw [hheap], by simp⟩, hd⟩
  · unfold createO
    rw [if_neg (by simp [h1]), h2, h3, hs]
  · intro a _; rw [hheap]; simp

theorem createO_null (d : Option (List Byte)) (st : Start) (h : ¬ (st.obj && st.map && st.table)) :
    createO d st = some (none, []) := by
  unfold createO
  by_cases h1 : st.obj = false
  · rw [if_pos h1]
  · rw [if_neg h1]
    unfold StrParams.create
    have : Hashmap.create 16 st.map st.table = some none := by
      obtain ⟨a, b, c, e⟩ := st
      simp only [Bool.and_eq_true, not_and, Bool.not_eq_true] at h h1
      cases a
      · simp at h1
      cases b
      · rfl
      · cases c
        · rfl
        · simp at h
    rw [this]
    rfl

/-! ### Asking -/

theorem value_lookup (h : Heap) (L : FMap) (kp : Ptr) :
    value (omap h L) (h.txt kp) = (Hashmap.Spec.lookup (cfg h).fnEq L kp).bind
      fun p => if p.2 = 0 then none else some (h.txt p.2) := by
  unfold value omap Hashmap.Spec.lookup
  rw [List.find?_map]
  have e : (fun (p : List Byte × Option (List Byte)) => p.1 == h.txt kp) ∘
      (fun (p : Ptr × Ptr) => (h.txt p.1, if p.2 = 0 then none else some (h.txt p.2))) =
      fun p => (cfg h).fnEq p.1 kp := by
    funext p; simp [cfg]
  rw [e]
  cases L.find? fun p => (cfg h).fnEq p.1 kp <;> rfl

theorem lookupO_spec {s : St} {L : FMap} {X : List Ptr} (g : GoodO s L X) (b : Bool)
    (hb : Quiet b s.heap L) (k : List Byte) (hk : b = true ∨ djb k ≠ 5381) :
    (value (omap s.heap L) k = none ∧ lookupO s k = some 0) ∨
    (∃ p v, p ≠ 0 ∧ p ∈ s.heap.live ∧ value (omap s.heap L) k = some v ∧ s.heap.txt p = v ∧
      (0 : Byte) ∉ v ∧ lookupO s k = some p) := by
  have hold1 : ∀ p ∈ L, (s.heap.name k).2.txt p.1 = s.heap.txt p.1 :=
    fun p hp => StrParams.name_txt_old (g.lt1 hp)
  have hold2 : ∀ p ∈ L, (s.heap.name k).2.txt p.2 = s.heap.txt p.2 :=
    fun p hp => StrParams.name_txt_old (g.lt2 hp)
  have r' := R_congr (h' := (s.heap.name k).2) g.r hold1
  have hs : searchOk (s.heap.name k).2 s.map (s.heap.name k).1 = true := by
    refine search_of r' _ (fun p hp h => g.mem1 hp h) ?_
    intro p hp _ heq
    refine ⟨fun h0 => ?_, Nat.ne_of_gt g.pos.1⟩
    rcases hk with hk | hk
    · exact hb.1 hk p hp h0
    · rw [StrParams.name_txt_new, hold1 p hp, h0, g.txt0, djb_nil] at heq
      exact hk heq.symm
  have hl : lookupO s k = some (Hashmap.Spec.get (cfg (s.heap.name k).2).fnEq L (s.heap.name k).1) := by
    unfold lookupO
    simp only
    rw [if_pos hs, Hashmap.get_ok (good_cfg _) r']
    rfl
  rw [hl]
  have hf := value_lookup (s.heap.name k).2 L (s.heap.name k).1
  rw [StrParams.name_txt_new, omap_congr hold1 hold2] at hf
  unfold Hashmap.Spec.get
  cases hq : Hashmap.Spec.lookup (cfg (s.heap.name k).2).fnEq L (s.heap.name k).1 with
  | none => left; rw [hq] at hf; exact ⟨hf, rfl⟩
  | some q =>
    rw [hq, Option.bind_some] at hf
    have hqL : q ∈ L := List.mem_of_find?_eq_some hq
    by_cases h0 : q.2 = 0
    · left
      rw [if_pos h0] at hf
      exact ⟨hf, by simp only [h0]⟩
    · right
      rw [if_neg h0, hold2 q hqL] at hf
      exact ⟨q.2, s.heap.txt q.2, h0, g.mem2 hqL h0, hf, rfl, g.no0 _ (g.mem2 hqL h0), rfl⟩

theorem hasKeyO_spec {s : St} {L : FMap} {X : List Ptr} (g : GoodO s L X) (b : Bool)
    (hb : Quiet b s.heap L) (k : List Byte) (hk : b = true ∨ djb k ≠ 5381) :
    hasKeyO s k = some (value (omap s.heap L) k).isSome := by
  unfold hasKeyO
  rcases lookupO_spec g b hb k hk with ⟨h1, h2⟩ | ⟨p, v, h1, _, h2, _, _, h3⟩
  · rw [h2, h1]; rfl
  · rw [h3, h2]
    simp [h1]

theorem getStrO_spec {s : St} {L : FMap} {X : List Ptr} (g : GoodO s L X) (b : Bool)
    (hb : Quiet b s.heap L) (k : List Byte) (hk : b = true ∨ djb k ≠ 5381) (out : Mem)
    (size : Nat) (hs : size ≤ out.length) :
    getStrO s k out size = some (match value (omap s.heap L) k with
      | none => (out, -2)
      | some v => if size < v.length + 1 then (out, -12) else (out.front (v ++ [0]), 0)) := by
  unfold getStrO
  rcases lookupO_spec g b hb k hk with ⟨h1, h2⟩ | ⟨p, v, h1, h1l, h2, h3, h0, h4⟩
  · rw [h2, h1]; rfl
  · rw [h4, h2]
    obtain ⟨q, rfl⟩ : ∃ q, p = q + 1 := ⟨p - 1, (Nat.succ_pred_eq_of_ne_zero h1).symm⟩
    simp only [StrParams.readStr]
    rw [if_pos h1l, h3]
    simp only
    by_cases hsz : size < v.length + 1
    · rw [if_pos (by omega), if_pos hsz]
    · rw [if_neg (by omega), if_neg hsz]
      have := Strings.strlcpy_spec out v [] size h0 hs
      rw [this, if_neg (by omega)]
      rw [List.take_of_length_le (by omega)]
      rfl

/-! ### Destroying -/

/-- The pointers freed. -/
def evPtr : Ev → Ptr
  | .freeKey p => p
  | .freeVal p => p
  | _ => 0

theorem destroy_specO {s : St} {L : FMap} {X : List Ptr} (g : GoodO s L X) :
    ∃ h', StrParams.destroy s = some h' ∧ h'.live.length = real X := by
  obtain ⟨_, evs, _, h2, _, h4⟩ := Hashmap.clear_ok g.r
  have hlk : (cfg s.heap).lock = false := rfl
  unfold StrParams.destroy
  rw [h2]
  simp only [Hashmap.locked, hlk, Bool.false_eq_true, if_false]
  have hall : ∀ e ∈ evs, ∃ p, p ≠ 0 ∧ (e = .freeKey p ∨ e = .freeVal p) := by
    intro e he
    have := h4.mem_iff.mp he
    unfold Hashmap.freeEvs at this
    obtain ⟨p, _, hp⟩ := List.mem_flatMap.mp this
    rcases List.mem_append.mp hp with hp | hp
    · unfold Hashmap.freeKeyEv at hp
      split at hp
      · rename_i h; exact ⟨p.1, h.1, Or.inl (by simpa using hp)⟩
      · cases hp
    · unfold Hashmap.freeValEv at hp
      split at hp
      · rename_i h; exact ⟨p.2, h.1, Or.inr (by simpa using hp)⟩
      · cases hp
  have hcount : ∀ a, a ≠ 0 → (evs.map evPtr).count a = (L.map (·.1)).count a + (L.map (·.2)).count a := by
    intro a ha
    rw [(h4.map evPtr).count_eq]
    unfold Hashmap.freeEvs
    clear h2 h4 hall g
    have hz : ((0 : Ptr) == a) = false := by simpa using Ne.symm ha
    induction L with
    | nil => rfl
    | cons p L ih =>
      rw [List.flatMap_cons, List.map_append, List.count_append, ih, List.map_cons, List.map_cons,
        List.count_cons, List.count_cons, List.map_append, List.count_append]
      have e1 : ((Hashmap.freeKeyEv (cfg s.heap) p.1).map evPtr).count a = if p.1 == a then 1 else 0 := by
        unfold Hashmap.freeKeyEv
        by_cases h : p.1 = 0
        · rw [if_neg (by simp [h]), h, hz]; rfl
        · rw [if_pos ⟨h, rfl⟩]; simp [evPtr, List.count_cons]
      have e2 : ((Hashmap.freeValEv (cfg s.heap) p.2).map evPtr).count a = if p.2 == a then 1 else 0 := by
        unfold Hashmap.freeValEv
        by_cases h : p.2 = 0
        · rw [if_neg (by simp [h]), h, hz]; rfl
        · rw [if_pos ⟨h, rfl⟩]; simp [evPtr, List.count_cons]
      rw [e1, e2]; omega
  have hno0 : (0 : Ptr) ∉ evs.map evPtr := by
    intro h
    obtain ⟨e, he, h0⟩ := List.mem_map.mp h
    obtain ⟨p, hp, rfl | rfl⟩ := hall e he
    · exact hp h0
    · exact hp h0
  have hn1 : ∀ a, s.heap.live.count a ≤ 1 := fun a => List.nodup_iff_count.mp g.nodup a
  obtain ⟨h', k1, k2, k3, k4, k5⟩ := StrParams.applyEvs_frees (h := s.heap) evs (evs.map evPtr) g.nodup
    (by intro e he; obtain ⟨p, _, h⟩ := hall e he; exact ⟨p, h⟩)
    (by
      apply List.map_congr_left
      intro e he
      obtain ⟨p, _, rfl | rfl⟩ := hall e he <;> rfl)
    (by
      intro p hp
      have hp0 : p ≠ 0 := fun h => hno0 (h ▸ hp)
      have := g.live p hp0
      have h3 := hcount p hp0
      have h5 := List.count_pos_iff.mpr hp
      exact List.count_pos_iff.mp (by omega))
    (by
      rw [List.nodup_iff_count]
      intro a
      by_cases ha : a = 0
      · rw [ha, List.count_eq_zero.mpr hno0]; omega
      · rw [hcount a ha]
        have := g.live a ha
        have := hn1 a
        omega)
  refine ⟨h', k1, ?_⟩
  have hperm : h'.live.Perm (X.filter (· ≠ 0)) := by
    rw [List.perm_iff_count]
    intro a
    have h5 := List.perm_iff_count.mp k5 a
    rw [List.count_append] at h5
    by_cases ha : a = 0
    · have z1 : s.heap.live.count a = 0 := List.count_eq_zero.mpr fun h => g.pos.2 a h ha
      have z2 : (X.filter (· ≠ 0)).count a = 0 := List.count_eq_zero.mpr fun h => by
        have := (List.mem_filter.mp h).2
        simp [ha] at this
      omega
    · rw [List.count_filter (by simpa using ha)]
      have := g.live a ha
      have := hcount a ha
      omega
  exact hperm.length_eq

end Verif.StrParamsOom
