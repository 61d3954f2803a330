import Verif.StrParams.Spec
import Verif.Strings.Copy
import Verif.Hashmap.Props
/-!
# str_params: the invariant and the map operations
-/
namespace Verif.StrParams
open Verif.Hashmap (Ptr Cfg Map Ev R Inv kv hashKey)
open Verif.Hashmap.Spec (FMap GoodCfg)
open Spec

theorem good_cfg (h : Heap) : GoodCfg (cfg h) where
  refl a := by simp [cfg]
  symm a b hab := by simp [cfg] at *; exact hab.symm
  trans a b d hab hbd := by simp [cfg] at *; exact hab.trans hbd
  hash a b hab := by simp [cfg] at *; rw [hab]

theorem R_congr {h h' : Heap} {m : Map} {L : FMap} (r : R (cfg h) m L)
    (hk : ∀ p ∈ L, h'.txt p.1 = h.txt p.1) : R (cfg h') m L := by
  refine ⟨⟨r.inv.pow, r.inv.len, r.inv.place, ?_, r.inv.size, r.inv.bound⟩, r.perm, ?_⟩
  · intro e he
    rw [r.inv.hash e he]
    have hm : kv e ∈ L := r.perm.mem_iff.mp (List.mem_map_of_mem he)
    have := hk _ hm
    simp only [kv] at this
    simp only [hashKey, cfg, this]
  · refine r.distinct.imp_of_mem ?_
    intro a b ha hb hab
    simp only [cfg] at hab ⊢
    rw [hk a ha, hk b hb]; exact hab

/-- State invariant: the map represents `L`; the live heap strings are exactly its keys and values, and
the leaked blocks `X`. -/
structure Good (s : St) (L : FMap) (X : List Ptr) : Prop where
  r : R (cfg s.heap) s.map L
  live : s.heap.live.Perm (L.map (·.1) ++ L.map (·.2) ++ X)
  nodup : s.heap.live.Nodup
  lt : ∀ p ∈ s.heap.live, p < s.heap.next
  pos : 1 ≤ s.heap.next ∧ ∀ p ∈ s.heap.live, p ≠ 0
  no0 : ∀ p ∈ s.heap.live, (0 : Byte) ∉ s.heap.txt p

/-- The texts of the pairs in `L`. -/
def texts (h : Heap) (L : FMap) : SMap := L.map fun p => (h.txt p.1, h.txt p.2)

theorem texts_length (h : Heap) (L : FMap) : (texts h L).length = L.length := by simp [texts]

theorem Good.mem1 {s : St} {L : FMap} {X : List Ptr} (g : Good s L X) {p : Ptr × Ptr} (h : p ∈ L) :
    p.1 ∈ s.heap.live := by
  apply g.live.mem_iff.mpr
  simp only [List.mem_append, List.mem_map]
  exact Or.inl (Or.inl ⟨p, h, rfl⟩)

theorem Good.mem2 {s : St} {L : FMap} {X : List Ptr} (g : Good s L X) {p : Ptr × Ptr} (h : p ∈ L) :
    p.2 ∈ s.heap.live := by
  apply g.live.mem_iff.mpr
  simp only [List.mem_append, List.mem_map]
  exact Or.inl (Or.inr ⟨p, h, rfl⟩)

theorem touch_ok {h : Heap} {m : Map} {L : FMap} (r : R (cfg h) m L) (hl : ∀ p ∈ L, p.1 ∈ h.live)
    (k : Ptr) : touchOk h m k = true := by
  unfold touchOk
  rw [List.all_eq_true]
  intro e he
  simp only [decide_eq_true_eq]
  right
  cases hb : m.buckets[Hashmap.calculateIndex m.bucketCount (hashKey (cfg h) k)]? with
  | none => rw [hb] at he; simp at he
  | some ch =>
    rw [hb] at he
    simp only [Option.getD_some] at he
    have hmem : e ∈ m.buckets.flatten := by
      rw [List.mem_flatten]
      exact ⟨ch, List.mem_of_getElem? hb, he⟩
    have : kv e ∈ L := r.perm.mem_iff.mp (List.mem_map_of_mem hmem)
    exact hl _ this

/-- Lookup by pointer and by text agree. -/
theorem find_texts (h : Heap) (L : FMap) (kp : Ptr) (k : List Byte) (hk : h.txt kp = k) :
    find (texts h L) k = (Hashmap.Spec.lookup (cfg h).fnEq L kp).map fun p => h.txt p.2 := by
  unfold find texts Hashmap.Spec.lookup
  rw [List.find?_map, Option.map_map]
  have e : (fun (p : List Byte × List Byte) => p.1 == k) ∘ (fun (p : Ptr × Ptr) => (h.txt p.1, h.txt p.2)) =
      fun p => (cfg h).fnEq p.1 kp := by
    funext p; simp [cfg, hk]
  rw [e]
  rfl

theorem texts_congr {h h' : Heap} {L : FMap} (hk : ∀ p ∈ L, h'.txt p.1 = h.txt p.1)
    (hv : ∀ p ∈ L, h'.txt p.2 = h.txt p.2) : texts h' L = texts h L := by
  unfold texts
  apply List.map_congr_left
  intro p hp
  rw [hk p hp, hv p hp]

theorem name_txt_old {h : Heap} {s : List Byte} {p : Ptr} (hp : p < h.next) :
    (h.name s).2.txt p = h.txt p := by
  simp only [Heap.name]; rw [if_neg (Nat.ne_of_lt hp)]

theorem name_txt_new (h : Heap) (s : List Byte) : (h.name s).2.txt (h.name s).1 = s := by
  simp [Heap.name]

theorem dup_txt_old {h : Heap} {s : List Byte} {p : Ptr} (hp : p < h.next) :
    (h.dup s).2.txt p = h.txt p := by
  simp only [Heap.dup]; rw [if_neg (Nat.ne_of_lt hp)]

theorem dup_txt_new (h : Heap) (s : List Byte) : (h.dup s).2.txt (h.dup s).1 = s := by
  simp [Heap.dup]

/-- What `lookup` answers. -/
theorem lookup_spec {s : St} {L : FMap} {X : List Ptr} (g : Good s L X) (k : List Byte) :
    (find (texts s.heap L) k = none ∧ lookup s k = some 0) ∨
    (∃ p v, p ≠ 0 ∧ p ∈ s.heap.live ∧ find (texts s.heap L) k = some v ∧ s.heap.txt p = v ∧
      (0 : Byte) ∉ v ∧ lookup s k = some p) := by
  have hold1 : ∀ p ∈ L, (s.heap.name k).2.txt p.1 = s.heap.txt p.1 :=
    fun p hp => name_txt_old (g.lt _ (g.mem1 hp))
  have hold2 : ∀ p ∈ L, (s.heap.name k).2.txt p.2 = s.heap.txt p.2 :=
    fun p hp => name_txt_old (g.lt _ (g.mem2 hp))
  have r' := R_congr (h' := (s.heap.name k).2) g.r hold1
  have hl : lookup s k = some (Hashmap.Spec.get (cfg (s.heap.name k).2).fnEq L (s.heap.name k).1) := by
    unfold lookup
    simp only
    rw [if_pos (touch_ok r' (fun p hp => g.mem1 hp) _), Hashmap.get_ok (good_cfg _) r']
    rfl
  rw [hl]
  have hf := find_texts (s.heap.name k).2 L (s.heap.name k).1 k (name_txt_new _ _)
  rw [texts_congr hold1 hold2] at hf
  unfold Hashmap.Spec.get
  cases hq : Hashmap.Spec.lookup (cfg (s.heap.name k).2).fnEq L (s.heap.name k).1 with
  | none => left; rw [hq] at hf; exact ⟨hf, rfl⟩
  | some q =>
    right
    rw [hq] at hf
    have hqL : q ∈ L := List.mem_of_find?_eq_some hq
    refine ⟨q.2, s.heap.txt q.2, g.pos.2 _ (g.mem2 hqL), g.mem2 hqL, ?_, rfl, g.no0 _ (g.mem2 hqL), rfl⟩
    rw [hf, Option.map_some, hold2 q hqL]

theorem hasKey_spec {s : St} {L : FMap} {X : List Ptr} (g : Good s L X) (k : List Byte) :
    hasKey s k = some (find (texts s.heap L) k).isSome := by
  unfold hasKey
  rcases lookup_spec g k with ⟨h1, h2⟩ | ⟨p, v, h1, _, h2, _, _, h3⟩
  · rw [h2, h1]; rfl
  · rw [h3, h2]
    simp [h1]

theorem getStr_spec {s : St} {L : FMap} {X : List Ptr} (g : Good s L X) (k : List Byte) (out : Mem)
    (size : Nat) (hs : size ≤ out.length) :
    getStr s k out size = some (match find (texts s.heap L) k with
      | none => (out, -2)
      | some v => if size < v.length + 1 then (out, -12) else (out.front (v ++ [0]), 0)) := by
  unfold getStr
  rcases lookup_spec g k with ⟨h1, h2⟩ | ⟨p, v, h1, h1l, h2, h3, h0, h4⟩
  · rw [h2, h1]; rfl
  · rw [h4, h2]
    obtain ⟨q, rfl⟩ : ∃ q, p = q + 1 := ⟨p - 1, (Nat.succ_pred_eq_of_ne_zero h1).symm⟩
    simp only [readStr]
    rw [if_pos h1l, h3]
    simp only
    by_cases hsz : size < v.length + 1
    · rw [if_pos (by omega), if_pos hsz]
    · rw [if_neg (by omega), if_neg hsz]
      have := Strings.strlcpy_spec out v [] size h0 hs
      rw [this, if_neg (by omega)]
      rw [List.take_of_length_le (by omega)]
      rfl

/-! ### frees -/

theorem applyEvs_frees {h : Heap} : ∀ (evs : List Ev) (l : List Ptr),
    h.live.Nodup → (∀ e ∈ evs, ∃ p, e = .freeKey p ∨ e = .freeVal p) →
    evs.map (fun e => match e with | .freeKey p => p | .freeVal p => p | _ => 0) = l →
    (∀ p ∈ l, p ∈ h.live) → l.Nodup →
    ∃ h', h.applyEvs evs = some h' ∧ h'.txt = h.txt ∧ h'.next = h.next ∧ h'.live.Nodup ∧
      (h'.live ++ l).Perm h.live := by
  intro evs
  induction evs generalizing h with
  | nil =>
    intro l hn _ hl _ _
    subst hl
    exact ⟨h, rfl, rfl, rfl, hn, by simp⟩
  | cons e es ih =>
    intro l hn hev hl hm hnd
    obtain ⟨p, hp⟩ := hev e (by simp)
    have key : ∀ (hh : (h.applyEvs (e :: es)) = (h.free p).bind fun h => h.applyEvs es)
        (hl' : l = p :: es.map (fun e => match e with | .freeKey p => p | .freeVal p => p | _ => 0)),
        ∃ h', h.applyEvs (e :: es) = some h' ∧ h'.txt = h.txt ∧ h'.next = h.next ∧ h'.live.Nodup ∧
          (h'.live ++ l).Perm h.live := by
      intro hh hl'
      subst hl'
      have hpl : p ∈ h.live := hm p (by simp)
      rw [hh]
      unfold Heap.free
      rw [if_pos hpl]
      simp only [Option.bind_some]
      obtain ⟨h', k1, k2, k3, k4, k5⟩ := ih (h := { h with live := h.live.erase p }) _
        (hn.erase p) (fun e he => hev e (by simp [he])) rfl
        (by
          intro q hq
          have hq1 := hm q (by simp only [List.mem_cons]; exact Or.inr hq)
          have hne : q ≠ p := by
            intro he; subst he
            exact (List.nodup_cons.mp hnd).1 hq
          exact (List.mem_erase_of_ne hne).mpr hq1)
        (List.nodup_cons.mp hnd).2
      refine ⟨h', k1, k2, k3, k4, ?_⟩
      simp only at k5
      have : h.live.Perm (p :: h.live.erase p) := List.perm_cons_erase hpl
      exact (List.perm_middle).trans ((k5.cons p).trans this.symm)
    rcases hp with hp | hp <;> subst hp
    · exact key rfl (by rw [← hl]; rfl)
    · exact key rfl (by rw [← hl]; rfl)

theorem Good.free_extra {s : St} {L : FMap} {X : List Ptr} {p : Ptr} (g : Good s L (p :: X)) :
    ∃ h', s.heap.free p = some h' ∧ h'.txt = s.heap.txt ∧ Good { s with heap := h' } L X := by
  have hp : p ∈ s.heap.live := g.live.mem_iff.mpr (by simp)
  unfold Heap.free
  rw [if_pos hp]
  refine ⟨_, rfl, rfl, ⟨g.r, ?_, g.nodup.erase p, ?_, ⟨g.pos.1, ?_⟩, ?_⟩⟩
  · simp only
    have h1 := List.perm_cons_erase hp
    have h2 : (p :: s.heap.live.erase p).Perm (p :: (L.map (·.1) ++ L.map (·.2) ++ X)) :=
      h1.symm.trans (g.live.trans List.perm_middle)
    exact h2.cons_inv
  · exact fun q hq => g.lt q (List.mem_of_mem_erase hq)
  · exact fun q hq => g.pos.2 q (List.mem_of_mem_erase hq)
  · exact fun q hq => g.no0 q (List.mem_of_mem_erase hq)

theorem Good.dup {s : St} {L : FMap} {X : List Ptr} (g : Good s L X) (t : List Byte)
    (h0 : (0 : Byte) ∉ t) :
    Good { s with heap := (s.heap.dup t).2 } L ((s.heap.dup t).1 :: X) ∧
      texts (s.heap.dup t).2 L = texts s.heap L := by
  have hold1 : ∀ p ∈ L, (s.heap.dup t).2.txt p.1 = s.heap.txt p.1 :=
    fun p hp => dup_txt_old (g.lt _ (g.mem1 hp))
  have hold2 : ∀ p ∈ L, (s.heap.dup t).2.txt p.2 = s.heap.txt p.2 :=
    fun p hp => dup_txt_old (g.lt _ (g.mem2 hp))
  refine ⟨⟨R_congr g.r hold1, ?_, ?_, ?_, ⟨?_, ?_⟩, ?_⟩, texts_congr hold1 hold2⟩
  · exact (g.live.cons _).trans List.perm_middle.symm
  · refine List.nodup_cons.mpr ⟨fun h => ?_, g.nodup⟩
    exact absurd (g.lt _ h) (Nat.lt_irrefl _)
  · intro p hp
    simp only [Heap.dup, List.mem_cons] at hp ⊢
    rcases hp with hp | hp
    · rw [hp]; exact Nat.lt_succ_self _
    · exact Nat.lt_succ_of_lt (g.lt _ hp)
  · exact Nat.le_succ_of_le g.pos.1
  · intro p hp
    simp only [Heap.dup, List.mem_cons] at hp
    rcases hp with hp | hp
    · rw [hp]; exact Nat.ne_of_gt g.pos.1
    · exact g.pos.2 _ hp
  · intro p hp
    simp only [Heap.dup, List.mem_cons] at hp
    rcases hp with hp | hp
    · rw [hp]
      show (0 : Byte) ∉ (s.heap.dup t).2.txt (s.heap.dup t).1
      rw [dup_txt_new]; exact h0
    · show (0 : Byte) ∉ (s.heap.dup t).2.txt p
      rw [dup_txt_old (g.lt _ hp)]; exact g.no0 _ hp

theorem texts_setVal (h : Heap) (L : FMap) (kp vp : Ptr) :
    texts h (Hashmap.Spec.setVal (cfg h).fnEq L kp vp) =
      (texts h L).map (fun p => if p.1 == h.txt kp then (h.txt kp, h.txt vp) else p) := by
  unfold texts Hashmap.Spec.setVal
  rw [List.map_map, List.map_map]
  apply List.map_congr_left
  intro p _
  simp only [Function.comp, cfg]
  by_cases hp : h.txt p.1 = h.txt kp
  · simp [hp]
  · simp [hp]

/-- `hashmap_put` with two fresh strings. -/
theorem mapPut_spec {s : St} {L : FMap} {X : List Ptr} {kp vp : Ptr} (g : Good s L (vp :: kp :: X))
    (ok : Oks) :
    ∃ m' old h' L' X', mapPut s.map s.heap kp vp ok = some (m', old, h') ∧
      Good { s with map := m', heap := h' } L' X' ∧ h'.txt = s.heap.txt ∧
      (((find (texts s.heap L) (s.heap.txt kp)).isSome ∧ old ≠ 0 ∧ X' = kp :: X ∧
          texts h' L' = insert (texts s.heap L) (s.heap.txt kp) (s.heap.txt vp)) ∨
       (find (texts s.heap L) (s.heap.txt kp) = none ∧ old = 0 ∧ (ok.entry = true ∧ L.length < 2 ^ 59) ∧
          X' = X ∧ texts h' L' = insert (texts s.heap L) (s.heap.txt kp) (s.heap.txt vp) ∧
          m'.size = s.map.size + 1 ∧ L' = L ++ [(kp, vp)]) ∨
       (find (texts s.heap L) (s.heap.txt kp) = none ∧ old = 0 ∧ ¬ (ok.entry = true ∧ L.length < 2 ^ 59) ∧
          X' = vp :: kp :: X ∧ L' = L ∧ m'.size = s.map.size)) := by
  have hkl : kp ∈ s.heap.live := g.live.mem_iff.mpr (by simp)
  have hvl : vp ∈ s.heap.live := g.live.mem_iff.mpr (by simp)
  obtain ⟨m', hput, hR⟩ := Hashmap.put_ok (good_cfg s.heap) g.r kp vp ok.entry ok.grow
  have hlk : (cfg s.heap).lock = false := rfl
  have hf := find_texts s.heap L kp _ rfl
  unfold mapPut
  rw [if_pos (touch_ok g.r (fun p hp => g.mem1 hp) _), hput]
  simp only [Hashmap.locked, hlk, Bool.false_eq_true, if_false]
  cases hq : Hashmap.Spec.lookup (cfg s.heap).fnEq L kp with
  | none =>
    rw [hq] at hf
    simp only [Option.map_none] at hf
    simp only [Hashmap.Spec.step, hq] at hR ⊢
    have hev : Hashmap.putEvs (cfg s.heap) L kp = [] := by unfold Hashmap.putEvs; rw [hq]
    rw [hev]
    by_cases hyes : ok.entry = true ∧ L.length < 2 ^ 59
    · rw [if_pos hyes] at hR ⊢
      refine ⟨m', 0, s.heap, _, X, rfl, ⟨hR, ?_, g.nodup, g.lt, g.pos, g.no0⟩, rfl,
        Or.inr (Or.inl ⟨hf, rfl, hyes, rfl, ?_, ?_, rfl⟩)⟩
      · refine g.live.trans ?_
        rw [List.perm_iff_count]
        intro a
        simp only [List.count_append, List.count_cons, List.map_append, List.map_cons, List.map_nil,
          List.count_nil]
        omega
      · unfold Spec.insert
        rw [hf]
        simp [texts]
      · rw [hR.size_eq, g.r.size_eq]; simp
    · rw [if_neg hyes] at hR ⊢
      exact ⟨m', 0, s.heap, L, _, rfl, ⟨hR, g.live, g.nodup, g.lt, g.pos, g.no0⟩, rfl,
        Or.inr (Or.inr ⟨hf, rfl, hyes, rfl, rfl, by rw [hR.size_eq, g.r.size_eq]⟩)⟩
  | some q =>
    rw [hq] at hf
    simp only [Hashmap.Spec.step, hq] at hR ⊢
    have hqL : q ∈ L := List.mem_of_find?_eq_some hq
    have hq0 : q.2 ≠ 0 := g.pos.2 _ (g.mem2 hqL)
    have hev : Hashmap.putEvs (cfg s.heap) L kp = [.freeVal q.2] := by
      unfold Hashmap.putEvs
      rw [hq]
      simp only [Hashmap.freeValEv]
      rw [if_pos ⟨hq0, rfl⟩]
    rw [hev]
    obtain ⟨h', k1, k2, k3, k4, k5⟩ := applyEvs_frees (h := s.heap) [.freeVal q.2] [q.2] g.nodup
      (by intro e he; exact ⟨q.2, Or.inr (by simpa using he)⟩) rfl (by intro p hp; simp at hp; rw [hp]; exact g.mem2 hqL)
      (by simp)
    rw [k1]
    have hsub : ∀ p ∈ h'.live, p ∈ s.heap.live := fun p hp => k5.mem_iff.mp (by simp [hp])
    obtain ⟨A, B, hAB, hA, hB, hqk⟩ := Hashmap.lookup_split (good_cfg s.heap) g.r.distinct hq
    have hset : Hashmap.Spec.setVal (cfg s.heap).fnEq L kp vp = A ++ ([(q.1, vp)] ++ B) := by
      unfold Hashmap.Spec.setVal
      rw [hAB]
      simp only [List.map_append, List.map_cons, List.map_nil, hqk, if_true]
      congr 1
      · conv => rhs; rw [← List.map_id A]
        apply List.map_congr_left
        intro p hp; simp [hA p hp]
      · congr 1
        conv => rhs; rw [← List.map_id B]
        apply List.map_congr_left
        intro p hp; simp [hB p hp]
    refine ⟨m', q.2, h', Hashmap.Spec.setVal (cfg s.heap).fnEq L kp vp, kp :: X, rfl,
      ⟨R_congr hR (fun p _ => by rw [k2]), ?_, k4, ?_, ⟨?_, ?_⟩, ?_⟩, k2, Or.inl ⟨?_, hq0, rfl, ?_⟩⟩
    · rw [hset]
      have hl := g.live
      rw [hAB] at hl
      rw [List.perm_iff_count] at hl k5 ⊢
      intro a
      have h1 := hl a
      have h2 := k5 a
      simp only [List.count_append, List.count_cons, List.map_append, List.map_cons, List.map_nil,
        List.count_nil] at h1 h2 ⊢
      omega
    · intro p hp; simp only [k3]; exact g.lt _ (hsub p hp)
    · simp only [k3]; exact g.pos.1
    · intro p hp; exact g.pos.2 _ (hsub p hp)
    · intro p hp; simp only [k2]; exact g.no0 _ (hsub p hp)
    · rw [hf]; rfl
    · have e1 : texts h' (Hashmap.Spec.setVal (cfg s.heap).fnEq L kp vp) =
          texts s.heap (Hashmap.Spec.setVal (cfg s.heap).fnEq L kp vp) := by
        unfold texts; rw [k2]
      rw [e1, texts_setVal]
      unfold Spec.insert
      rw [hf]
      rfl

/-- `str_params_add_str`, when growing the table does not fail. -/
theorem addStr_spec {s : St} {L : FMap} {X : List Ptr} (g : Good s L X) (k v : List Byte)
    (hk : (0 : Byte) ∉ k) (hv : (0 : Byte) ∉ v) (ok : Oks) (hg : ok.grow = true) :
    ∃ s' L' r, addStr s k v ok = some (s', r) ∧ Good s' L' X ∧ s'.delim = s.delim ∧
      (texts s'.heap L', Res.code r) = Spec.step (texts s.heap L) (.add k v ok) := by
  unfold addStr
  by_cases h1 : ok.key = false
  · rw [if_pos h1]
    refine ⟨s, L, -12, rfl, g, rfl, ?_⟩
    simp [Spec.step, memOk, h1]
  rw [if_neg h1]
  have h1' : ok.key = true := by simpa using h1
  obtain ⟨g1, t1⟩ := g.dup k hk
  by_cases h2 : ok.val = false
  · rw [if_pos h2]
    obtain ⟨h', f1, f2, f3⟩ := g1.free_extra
    simp only at f1 f2
    rw [f1]
    refine ⟨_, L, -12, rfl, f3, rfl, ?_⟩
    simp only [Spec.step, memOk, h2, Bool.and_false, Bool.false_and, Bool.false_eq_true, if_false]
    congr 1
    rw [← t1]; unfold texts; rw [f2]
  rw [if_neg h2]
  have h2' : ok.val = true := by simpa using h2
  obtain ⟨g2, t2⟩ := g1.dup v hv
  simp only at g2 t2
  have hkt : ((s.heap.dup k).2.dup v).2.txt (s.heap.dup k).1 = k := by
    rw [dup_txt_old (by simp only [Heap.dup]; exact Nat.lt_succ_self _), dup_txt_new]
  have hvt : ((s.heap.dup k).2.dup v).2.txt ((s.heap.dup k).2.dup v).1 = v := dup_txt_new _ _
  generalize hh2 : ((s.heap.dup k).2.dup v).2 = hp at *
  generalize hvp : ((s.heap.dup k).2.dup v).1 = vp at *
  generalize hkp : (s.heap.dup k).1 = kp at *
  obtain ⟨m', old, h', L', X', p1, p2, p3, p4⟩ := mapPut_spec g2 ok
  simp only at p1 p3 p4
  unfold addTail
  rw [p1]
  simp only
  rw [hkt, hvt] at p4
  rw [t2, t1] at p4
  rcases p4 with ⟨q1, q2, q3, q4⟩ | ⟨q1, q2, q3, q4, q5, q6, _⟩ | ⟨q1, q2, q3, q4, q5, q6⟩
  · rw [if_neg q2]
    subst q3
    obtain ⟨h3, f1, f2, f3⟩ := p2.free_extra
    simp only at f1 f2 f3
    rw [f1]
    refine ⟨_, L', 0, rfl, f3, rfl, ?_⟩
    simp only [Spec.step, memOk, h1', h2', q1, Bool.true_and, Bool.true_or, if_true]
    congr 1
    rw [← q4]; unfold texts; rw [f2]
  · rw [if_pos q2]
    have hen : putEnomem s.map m' ok = false := by
      unfold putEnomem
      rw [if_neg (by omega)]
      rw [Bool.and_eq_false_iff]
      by_cases hbig : m'.size > (s.map.bucketCount * 3 % 2 ^ 64) / 4
      · right
        obtain ⟨n, hn, hbc⟩ := g.r.inv.pow
        have hlen := g.r.size_eq
        have h60 : n ≤ 59 := by
          by_cases hn60 : n = 60
          · exfalso
            rw [hbc, hn60] at hbig
            have : (2 ^ 60 * 3 % 2 ^ 64) / 4 = 3 * 2 ^ 58 := by decide
            omega
          · omega
        have hbcl : s.map.bucketCount ≤ 2 ^ 59 := by
          rw [hbc]; exact Nat.pow_le_pow_right (by omega) h60
        rw [Nat.mod_eq_of_lt (by omega)]
        simp only [Hashmap.callocOk, hg, Bool.true_and, Bool.not_eq_false', decide_eq_true_eq]
        omega
      · left; simpa using hbig
    rw [hen]
    subst q4
    refine ⟨_, L', 0, rfl, p2, rfl, ?_⟩
    have hT : (texts s.heap L).length < 2 ^ 59 := by rw [texts_length]; exact q3.2
    simp only [Spec.step, memOk, h1', h2', q1, q3.1, Bool.true_and, decide_eq_true hT, Bool.or_true,
      if_true]
    rw [q5]
  · rw [if_pos q2]
    have hen : putEnomem s.map m' ok = true := by
      unfold putEnomem; rw [if_pos q6]
    rw [hen]
    simp only [if_true]
    subst q4
    have p2' : Good { s with map := m', heap := h' } L' (kp :: vp :: X) := by
      refine { p2 with live := p2.live.trans ?_ }
      exact (List.Perm.swap _ _ _).append_left _
    obtain ⟨h3, f1, f2, f3⟩ := p2'.free_extra
    obtain ⟨h4, f4, f5, f6⟩ := f3.free_extra
    simp only at f1 f2 f3 f4 f5 f6
    rw [f1]
    simp only [Option.bind_some]
    rw [f4]
    refine ⟨_, L', -12, rfl, f6, rfl, ?_⟩
    have hT : ¬ (ok.entry = true ∧ (texts s.heap L).length < 2 ^ 59) := by rw [texts_length]; exact q3
    have hno : (ok.entry && decide ((texts s.heap L).length < 2 ^ 59)) = false := by
      rw [Bool.and_eq_false_iff]
      by_cases he : ok.entry = true
      · right; simpa using fun h => hT ⟨he, h⟩
      · left; simpa using he
    simp only [Spec.step, memOk, h1', h2', q1, Bool.true_and, hno, Option.isSome_none, Bool.or_false,
      Bool.false_eq_true, if_false]
    congr 1
    rw [q5, ← t1, ← t2]; unfold texts; rw [f5, f2, p3]

/-- `str_params_del`. -/
theorem del_spec {s : St} {L : FMap} {X : List Ptr} (g : Good s L X) (k : List Byte) :
    ∃ s' L', del s k = some s' ∧ Good s' L' X ∧ s'.delim = s.delim ∧
      texts s'.heap L' = erase (texts s.heap L) k := by
  have hold1 : ∀ p ∈ L, (s.heap.name k).2.txt p.1 = s.heap.txt p.1 :=
    fun p hp => name_txt_old (g.lt _ (g.mem1 hp))
  have hold2 : ∀ p ∈ L, (s.heap.name k).2.txt p.2 = s.heap.txt p.2 :=
    fun p hp => name_txt_old (g.lt _ (g.mem2 hp))
  have r' := R_congr (h' := (s.heap.name k).2) g.r hold1
  obtain ⟨m', hrem, hR⟩ := Hashmap.remove_ok (good_cfg _) r' (s.heap.name k).1
  have hlk : (cfg (s.heap.name k).2).lock = false := rfl
  have hkn := name_txt_new s.heap k
  have hlive : (s.heap.name k).2.live = s.heap.live := rfl
  have hnext : (s.heap.name k).2.next = s.heap.next + 1 := rfl
  unfold del
  simp only
  rw [if_pos (touch_ok r' (fun p hp => g.mem1 hp) _), hrem]
  simp only [Hashmap.locked, hlk, Bool.false_eq_true, if_false]
  generalize hhp : (s.heap.name k).2 = hp at *
  generalize (s.heap.name k).1 = kp at *
  have hnl : hp.live.Nodup := by rw [hlive]; exact g.nodup
  have htx : ∀ p ∈ s.heap.live, hp.txt p = s.heap.txt p := by
    intro p hpm; rw [← hhp]; exact name_txt_old (g.lt _ hpm)
  have herase : ∀ h' : Heap, h'.txt = hp.txt →
      texts h' (Hashmap.Spec.erase (cfg hp).fnEq L kp) = erase (texts s.heap L) k := by
    intro h' ht
    rw [← texts_congr hold1 hold2]
    unfold texts erase Hashmap.Spec.erase
    rw [List.filter_map, ht]
    congr 1
    apply List.filter_congr
    intro p _
    simp [cfg, hkn]
  cases hq : Hashmap.Spec.lookup (cfg hp).fnEq L kp with
  | none =>
    have hev : Hashmap.removeEvs (cfg hp) L kp = [] := by unfold Hashmap.removeEvs; rw [hq]
    rw [hev]
    rw [Hashmap.erase_none hq] at hR herase
    refine ⟨{ s with map := m', heap := hp }, L, rfl, ⟨hR, ?_, hnl, ?_, ⟨?_, ?_⟩, ?_⟩, rfl,
      herase hp rfl⟩
    · simp only [hlive]; exact g.live
    · intro p hpm; simp only [hnext]; rw [hlive] at hpm; exact Nat.lt_succ_of_lt (g.lt _ hpm)
    · simp only [hnext]; exact Nat.le_add_left _ _
    · intro p hpm; rw [hlive] at hpm; exact g.pos.2 _ hpm
    · intro p hpm; rw [hlive] at hpm; simp only; rw [htx p hpm]; exact g.no0 _ hpm
  | some q =>
    have hqL : q ∈ L := List.mem_of_find?_eq_some hq
    have hq1 : q.1 ≠ 0 := g.pos.2 _ (g.mem1 hqL)
    have hq2 : q.2 ≠ 0 := g.pos.2 _ (g.mem2 hqL)
    have hev : Hashmap.removeEvs (cfg hp) L kp = [.freeKey q.1, .freeVal q.2] := by
      unfold Hashmap.removeEvs
      rw [hq]
      simp only [Hashmap.freeKeyEv, Hashmap.freeValEv]
      rw [if_pos ⟨hq1, rfl⟩, if_pos ⟨hq2, rfl⟩]
      rfl
    rw [hev]
    have hne : q.1 ≠ q.2 := by
      intro he
      have hn := g.live.nodup_iff.mp g.nodup
      rw [List.append_assoc] at hn
      have := (List.nodup_append.mp hn).2.2 q.1 (List.mem_map_of_mem hqL) q.2
        (by simp only [List.mem_append]; exact Or.inl (List.mem_map_of_mem hqL))
      exact this he
    obtain ⟨h', k1, k2, k3, k4, k5⟩ := applyEvs_frees (h := hp) [.freeKey q.1, .freeVal q.2] [q.1, q.2]
      hnl (by
        intro e he
        simp only [List.mem_cons, List.not_mem_nil, or_false] at he
        rcases he with he | he
        · exact ⟨_, Or.inl he⟩
        · exact ⟨_, Or.inr he⟩) rfl
      (by
        intro p hpm
        rw [hlive]
        simp only [List.mem_cons, List.not_mem_nil, or_false] at hpm
        rcases hpm with h | h
        · rw [h]; exact g.mem1 hqL
        · rw [h]; exact g.mem2 hqL) (by simp [hne])
    rw [k1]
    obtain ⟨A, B, hAB, hA, hB, hqk⟩ := Hashmap.lookup_split (good_cfg hp) r'.distinct hq
    have her : Hashmap.Spec.erase (cfg hp).fnEq L kp = A ++ B := by
      unfold Hashmap.Spec.erase
      rw [hAB]
      simp only [List.filter_append]
      have eA : A.filter (fun p => !(cfg hp).fnEq p.1 kp) = A :=
        List.filter_eq_self.mpr (fun p hp => by simp [hA p hp])
      have eB : B.filter (fun p => !(cfg hp).fnEq p.1 kp) = B :=
        List.filter_eq_self.mpr (fun p hp => by simp [hB p hp])
      rw [eA, eB]
      simp [hqk]
    have hsub : ∀ p ∈ h'.live, p ∈ s.heap.live := fun p hpm => by
      rw [← hlive]; exact k5.mem_iff.mp (by simp [hpm])
    refine ⟨{ s with map := m', heap := h' }, _, rfl, ⟨R_congr hR (fun p _ => by rw [k2]), ?_, k4, ?_,
      ⟨?_, ?_⟩, ?_⟩, rfl, herase h' k2⟩
    · rw [her]
      have hl := g.live
      rw [hAB] at hl
      rw [hlive] at k5
      rw [List.perm_iff_count] at hl k5 ⊢
      intro a
      have h1 := hl a
      have h2 := k5 a
      simp only [List.count_append, List.count_cons, List.map_append, List.map_cons, List.map_nil,
        List.count_nil] at h1 h2 ⊢
      omega
    · intro p hpm; simp only [k3, hnext]; exact Nat.lt_succ_of_lt (g.lt _ (hsub p hpm))
    · simp only [k3, hnext]; exact Nat.le_add_left _ _
    · intro p hpm; exact g.pos.2 _ (hsub p hpm)
    · intro p hpm; simp only [k2]; rw [htx p (hsub p hpm)]; exact g.no0 _ (hsub p hpm)

/-- `str_params_destroy` frees everything that was not leaked before. -/
theorem destroy_spec {s : St} {L : FMap} {X : List Ptr} (g : Good s L X) :
    ∃ h', destroy s = some h' ∧ h'.live.Perm X := by
  obtain ⟨_, evs, _, h2, _, h4⟩ := Hashmap.clear_ok g.r
  have hlk : (cfg s.heap).lock = false := rfl
  unfold destroy
  rw [h2]
  simp only [Hashmap.locked, hlk, Bool.false_eq_true, if_false]
  let pr : Ev → Ptr := fun e => match e with | .freeKey p => p | .freeVal p => p | _ => 0
  have hfe : Hashmap.freeEvs (cfg s.heap) L = L.flatMap fun p => [Ev.freeKey p.1, Ev.freeVal p.2] := by
    unfold Hashmap.freeEvs
    rw [List.flatMap_def, List.flatMap_def]
    congr 1
    apply List.map_congr_left
    intro p hp
    simp only [Hashmap.freeKeyEv, Hashmap.freeValEv]
    rw [if_pos ⟨g.pos.2 _ (g.mem1 hp), rfl⟩, if_pos ⟨g.pos.2 _ (g.mem2 hp), rfl⟩]
    rfl
  have hpr : (evs.map pr).Perm (L.map (·.1) ++ L.map (·.2)) := by
    refine (h4.map pr).trans ?_
    rw [hfe, List.map_flatMap]
    clear hfe h4 h2 g
    induction L with
    | nil => exact List.Perm.refl _
    | cons p L ih =>
      rw [List.flatMap_cons]
      simp only [List.map_cons, List.map_nil]
      rw [List.perm_iff_count] at ih ⊢
      intro a
      have := ih a
      simp only [List.count_append, List.count_cons, List.count_nil, List.map_cons, List.map_nil] at this ⊢
      simp only [pr] at this ⊢
      omega
  have hn := g.live.nodup_iff.mp g.nodup
  obtain ⟨h', k1, k2, k3, k4, k5⟩ := applyEvs_frees (h := s.heap) evs (evs.map pr) g.nodup
    (by
      intro e he
      have := h4.mem_iff.mp he
      rw [hfe, List.mem_flatMap] at this
      obtain ⟨p, _, hp⟩ := this
      simp only [List.mem_cons, List.not_mem_nil, or_false] at hp
      rcases hp with hp | hp
      · exact ⟨_, Or.inl hp⟩
      · exact ⟨_, Or.inr hp⟩) rfl
    (by
      intro p hp
      apply g.live.mem_iff.mpr
      rw [List.mem_append]
      exact Or.inl (hpr.mem_iff.mp hp))
    (hpr.nodup_iff.mpr (List.nodup_append.mp hn).1)
  refine ⟨h', k1, ?_⟩
  have hl := g.live
  rw [List.perm_iff_count] at hl k5 hpr ⊢
  intro a
  have h1 := hl a
  have h2 := k5 a
  have h3 := hpr a
  simp only [List.count_append] at h1 h2 h3
  omega

end Verif.StrParams
