import Verif.StrParamsOom.Model
import Verif.StrParamsOom.Spec
import Verif.StrParams.Parse
/-!
# str_params under refusals: invariant and steps
-/
namespace Verif.StrParamsOom
open Verif.Hashmap (Ptr Cfg Map Entry Ev R Inv kv hashKey)
open Verif.Hashmap.Spec (FMap GoodCfg)
open Verif.StrParams (Heap St Oks cfg good_cfg R_congr)
open Spec

/-! ### The hash -/

theorem strHash_djb (s : List Byte) : StrParams.strHash s = djb s := by
  unfold StrParams.strHash djb
  congr 1
  funext h c
  have : (h <<< 5) + h = h * 33 := by
    rw [BitVec.shiftLeft_eq_mul_twoPow]
    have : (33 : BitVec 32) = BitVec.twoPow 32 5 + 1#32 := by decide
    rw [this, BitVec.mul_add, BitVec.mul_one]
  rw [this]

theorem xorshift_inj (n : Nat) (hn : 8 ≤ n) {x y : BitVec 32} (h : x ^^^ (x >>> n) = y ^^^ (y >>> n)) :
    x = y := by
  have hz : (x ^^^ y) = (x ^^^ y) >>> n := by
    have e : (x ^^^ (x >>> n)) ^^^ (y ^^^ (y >>> n)) = 0 := by rw [h]; simp
    rw [BitVec.ushiftRight_xor_distrib]
    have e2 : (x ^^^ y) ^^^ (x >>> n ^^^ y >>> n) = 0 := by
      rw [← e]; ac_rfl
    exact BitVec.xor_eq_zero_iff.mp e2
  have h2 : (x ^^^ y) = 0 := by
    generalize x ^^^ y = z at hz
    have a : z = z >>> (n + n) := by rw [BitVec.shiftRight_add, ← hz]; exact hz
    have b : z = z >>> ((n + n) + (n + n)) := by rw [BitVec.shiftRight_add, ← a]; exact a
    rw [b]
    apply BitVec.ushiftRight_eq_zero
    omega
  exact BitVec.xor_eq_zero_iff.mp h2

/-- hashmap.c 113-119. -/
def mix (h : BitVec 32) : BitVec 32 :=
  let h := h + ~~~(h <<< 9)
  let h := h ^^^ (h >>> 14)
  let h := h + (h <<< 4)
  h ^^^ (h >>> 10)

theorem mix_inj {x y : BitVec 32} (h : mix x = mix y) : x = y := by
  unfold mix at h
  have h1 := xorshift_inj 10 (by omega) h
  have m17 : ∀ z : BitVec 32, (z + z <<< 4) * 0xF0F0F0F1 = z := by
    intro z
    have : z + z <<< 4 = z * 17 := by
      rw [BitVec.shiftLeft_eq_mul_twoPow]
      have : (17 : BitVec 32) = 1#32 + BitVec.twoPow 32 4 := by decide
      rw [this, BitVec.mul_add, BitVec.mul_one]
    rw [this, BitVec.mul_assoc]
    have : (17 : BitVec 32) * 0xF0F0F0F1 = 1#32 := by decide
    rw [this, BitVec.mul_one]
  have h2 := xorshift_inj 14 (by omega) ((m17 _).symm.trans ((congrArg (· * 0xF0F0F0F1) h1).trans (m17 _)))
  have m9 : ∀ z : BitVec 32, (z + ~~~(z <<< 9) + 1#32) * 134480385 = z := by
    intro z
    have : z + ~~~(z <<< 9) + 1#32 = z * (1#32 - BitVec.twoPow 32 9) := by
      rw [BitVec.shiftLeft_eq_mul_twoPow, BitVec.mul_sub, BitVec.mul_one, BitVec.sub_eq_add_neg,
        BitVec.neg_eq_not_add, BitVec.add_assoc]
    rw [this, BitVec.mul_assoc]
    have : (1#32 - BitVec.twoPow 32 9) * 134480385 = 1#32 := by decide
    rw [this, BitVec.mul_one]
  exact (m9 x).symm.trans ((congrArg (fun z => (z + 1#32) * 134480385) h2).trans (m9 y))

theorem hashKey_mix (h : Heap) (p : Ptr) : hashKey (cfg h) p = mix (djb (h.txt p)) := by
  rw [← strHash_djb]; rfl

theorem hashKey_eq_iff (h : Heap) (p q : Ptr) :
    hashKey (cfg h) p = hashKey (cfg h) q ↔ djb (h.txt p) = djb (h.txt q) := by
  rw [hashKey_mix, hashKey_mix]
  exact ⟨mix_inj, fun h => by rw [h]⟩

theorem djb_nil : djb [] = 5381 := rfl

/-! ### Walks -/

theorem walkOk_of (h : Heap) (p : Ptr) (hash : BitVec 32) (ch : List Entry)
    (hs : ∀ e ∈ ch, e.key ≠ p → e.hash = hash → e.key ∈ h.live ∧ p ≠ 0) : walkOk h p hash ch = true := by
  induction ch with
  | nil => rfl
  | cons e es ih =>
    unfold walkOk
    have ih' := ih (fun e he => hs e (by simp [he]))
    by_cases h1 : e.key = p
    · rw [if_pos h1]
    · rw [if_neg h1]
      by_cases h2 : e.hash = hash
      · rw [if_neg (by simp [h2]), if_pos (hs e (by simp) h1 h2)]
        split
        · rfl
        · exact ih'
      · rw [if_pos h2]; exact ih'

/-- The empty name when a NULL key is stored: `strcmp(NULL, "")` is reached. -/
theorem walkOk_not (h : Heap) (p : Ptr) (hash : BitVec 32) (ch : List Entry) (e : Entry) (he : e ∈ ch)
    (hk : e.key = 0) (heq : e.hash = hash) (h0 : (0 : Ptr) ∉ h.live)
    (hd : ∀ e ∈ ch, e.key = p ∨ (e.hash = hash ∧ e.key ∈ h.live ∧ h.txt e.key = h.txt p) → False) :
    walkOk h p hash ch = false := by
  induction ch with
  | nil => cases he
  | cons x xs ih =>
    unfold walkOk
    have hx := hd x (by simp)
    rw [if_neg (fun h => hx (Or.inl h))]
    rcases List.mem_cons.mp he with rfl | he'
    · rw [if_neg (by simp [heq]), if_neg (by rw [hk]; exact fun h => h0 h.1)]
    · have ih' := ih he' (fun e he => hd e (by simp [he]))
      by_cases h2 : x.hash = hash
      · rw [if_neg (by simp [h2])]
        split
        · rename_i h3
          rw [if_neg (fun h => hx (Or.inr ⟨h2, h3.1, h⟩))]; exact ih'
        · rfl
      · rw [if_pos h2]; exact ih'

theorem chain_mem {h : Heap} {m : Map} {L : FMap} (r : R (cfg h) m L) {p : Ptr} {e : Entry}
    (he : e ∈ chainOf h m p) : kv e ∈ L ∧ e.hash = hashKey (cfg h) e.key := by
  unfold chainOf at he
  cases hb : m.buckets[Hashmap.calculateIndex m.bucketCount (hashKey (cfg h) p)]? with
  | none => rw [hb] at he; simp at he
  | some ch =>
    rw [hb] at he
    have hmem : e ∈ m.buckets.flatten := List.mem_flatten.mpr ⟨ch, List.mem_of_getElem? hb, he⟩
    exact ⟨r.perm.mem_iff.mp (List.mem_map_of_mem hmem), r.inv.hash e hmem⟩

theorem mem_chain {h : Heap} {m : Map} {L : FMap} (r : R (cfg h) m L) {p : Ptr} {q : Ptr × Ptr}
    (hq : q ∈ L) (hh : djb (h.txt q.1) = djb (h.txt p)) :
    ∃ e ∈ chainOf h m p, kv e = q := by
  obtain ⟨e, he, rfl⟩ := List.mem_map.mp (r.perm.mem_iff.mpr hq)
  obtain ⟨ch, hch, hec⟩ := List.mem_flatten.mp he
  obtain ⟨i, hi, rfl⟩ := List.getElem_of_mem hch
  have hpl := r.inv.place i _ (List.getElem?_eq_getElem hi) e hec
  rw [r.inv.hash e he, (hashKey_eq_iff h e.key p).mpr hh] at hpl
  refine ⟨e, ?_, rfl⟩
  unfold chainOf
  rw [hpl, List.getElem?_eq_getElem hi]
  exact hec

/-- State invariant: the map represents `L`; the live strings are its non-NULL keys and values and the lost
blocks `X` (whose NULLs do not count). -/
structure GoodO (s : St) (L : FMap) (X : List Ptr) : Prop where
  r : R (cfg s.heap) s.map L
  live : ∀ a, a ≠ 0 → s.heap.live.count a = (L.map (·.1)).count a + (L.map (·.2)).count a + X.count a
  nodup : s.heap.live.Nodup
  lt : ∀ p ∈ s.heap.live, p < s.heap.next
  pos : 1 ≤ s.heap.next ∧ ∀ p ∈ s.heap.live, p ≠ 0
  no0 : ∀ p ∈ s.heap.live, (0 : Byte) ∉ s.heap.txt p
  txt0 : s.heap.txt 0 = []
  named : ∀ p ∈ L, p.1 ≠ 0 → s.heap.txt p.1 ≠ []

/-- The names and values in `L`. -/
def omap (h : Heap) (L : FMap) : OMap :=
  L.map fun p => (h.txt p.1, if p.2 = 0 then none else some (h.txt p.2))

theorem GoodO.mem1 {s : St} {L : FMap} {X : List Ptr} (g : GoodO s L X) {p : Ptr × Ptr} (h : p ∈ L)
    (h0 : p.1 ≠ 0) : p.1 ∈ s.heap.live := by
  have h1 := g.live p.1 h0
  have h2 : 0 < (L.map (·.1)).count p.1 := List.count_pos_iff.mpr (List.mem_map_of_mem h)
  exact List.count_pos_iff.mp (by omega)

theorem GoodO.mem2 {s : St} {L : FMap} {X : List Ptr} (g : GoodO s L X) {p : Ptr × Ptr} (h : p ∈ L)
    (h0 : p.2 ≠ 0) : p.2 ∈ s.heap.live := by
  have h1 := g.live p.2 h0
  have h2 : 0 < (L.map (·.2)).count p.2 := List.count_pos_iff.mpr (List.mem_map_of_mem h)
  exact List.count_pos_iff.mp (by omega)

theorem GoodO.lt1 {s : St} {L : FMap} {X : List Ptr} (g : GoodO s L X) {p : Ptr × Ptr} (h : p ∈ L) :
    p.1 < s.heap.next := by
  by_cases h0 : p.1 = 0
  · rw [h0]; exact g.pos.1
  · exact g.lt _ (g.mem1 h h0)

theorem GoodO.lt2 {s : St} {L : FMap} {X : List Ptr} (g : GoodO s L X) {p : Ptr × Ptr} (h : p ∈ L) :
    p.2 < s.heap.next := by
  by_cases h0 : p.2 = 0
  · rw [h0]; exact g.pos.1
  · exact g.lt _ (g.mem2 h h0)

theorem omap_congr {h h' : Heap} {L : FMap} (hk : ∀ p ∈ L, h'.txt p.1 = h.txt p.1)
    (hv : ∀ p ∈ L, h'.txt p.2 = h.txt p.2) : omap h' L = omap h L := by
  unfold omap
  apply List.map_congr_left
  intro p hp
  rw [hk p hp, hv p hp]

/-- A copy, granted or not. -/
theorem GoodO.dup {s : St} {L : FMap} {X : List Ptr} (g : GoodO s L X) (t : List Byte) (ok : Bool)
    (h0 : (0 : Byte) ∉ t) :
    GoodO { s with heap := (dupO s.heap t ok).2 } L ((dupO s.heap t ok).1 :: X) ∧
      omap (dupO s.heap t ok).2 L = omap s.heap L ∧
      (dupO s.heap t ok).2.txt (dupO s.heap t ok).1 = (if ok then t else []) ∧
      (dupO s.heap t ok).1 = (if ok then s.heap.next else 0) ∧
      (∀ p < s.heap.next, (dupO s.heap t ok).2.txt p = s.heap.txt p) ∧
      (dupO s.heap t ok).1 < (dupO s.heap t ok).2.next := by
  cases ok with
  | false =>
    refine ⟨⟨g.r, ?_, g.nodup, g.lt, g.pos, g.no0, g.txt0, g.named⟩, rfl, g.txt0, rfl, fun p _ => rfl, g.pos.1⟩
    intro a ha
    show s.heap.live.count a = _ + _ + (0 :: X).count a
    rw [List.count_cons, g.live a ha]
    have : (0 == a) = false := by simpa using Ne.symm ha
    rw [this]; simp
  | true =>
    have hold : ∀ p < s.heap.next, (s.heap.dup t).2.txt p = s.heap.txt p := fun p hp => StrParams.dup_txt_old hp
    refine ⟨⟨R_congr g.r fun p hp => hold _ (g.lt1 hp), ?_, ?_, ?_, ⟨?_, ?_⟩, ?_, ?_, ?_⟩,
      omap_congr (fun p hp => hold _ (g.lt1 hp)) (fun p hp => hold _ (g.lt2 hp)),
      StrParams.dup_txt_new _ _, rfl, hold, Nat.lt_succ_self _⟩
    · intro a ha
      show (s.heap.next :: s.heap.live).count a = _ + _ + (s.heap.next :: X).count a
      rw [List.count_cons, List.count_cons, g.live a ha]; omega
    · refine List.nodup_cons.mpr ⟨fun h => ?_, g.nodup⟩
      exact absurd (g.lt _ h) (Nat.lt_irrefl _)
    · intro p hp
      have hp : p ∈ s.heap.next :: s.heap.live := hp
      show p < s.heap.next + 1
      rcases List.mem_cons.mp hp with hp | hp
      · rw [hp]; exact Nat.lt_succ_self _
      · exact Nat.lt_succ_of_lt (g.lt _ hp)
    · exact Nat.le_succ_of_le g.pos.1
    · intro p hp
      have hp : p ∈ s.heap.next :: s.heap.live := hp
      rcases List.mem_cons.mp hp with hp | hp
      · rw [hp]; exact Nat.ne_of_gt g.pos.1
      · exact g.pos.2 _ hp
    · intro p hp
      have hp : p ∈ s.heap.next :: s.heap.live := hp
      rcases List.mem_cons.mp hp with hp | hp
      · rw [hp]
        show (0 : Byte) ∉ (s.heap.dup t).2.txt (s.heap.dup t).1
        rw [StrParams.dup_txt_new]; exact h0
      · show (0 : Byte) ∉ (s.heap.dup t).2.txt p
        rw [hold _ (g.lt _ hp)]; exact g.no0 _ hp
    · show (s.heap.dup t).2.txt 0 = []
      rw [hold 0 g.pos.1]; exact g.txt0
    · intro p hp h1
      show (s.heap.dup t).2.txt p.1 ≠ []
      rw [hold _ (g.lt1 hp)]; exact g.named p hp h1

theorem known_lookup (h : Heap) (L : FMap) (kp : Ptr) :
    known (omap h L) (h.txt kp) = (Hashmap.Spec.lookup (cfg h).fnEq L kp).isSome := by
  unfold known omap Hashmap.Spec.lookup
  rw [List.any_map, List.isSome_find?]
  rfl

/-- What a search needs. -/
theorem search_of {h : Heap} {m : Map} {L : FMap} (r : R (cfg h) m L) (kp : Ptr)
    (hl : ∀ p ∈ L, p.1 ≠ 0 → p.1 ∈ h.live)
    (hs : ∀ p ∈ L, p.1 ≠ kp → djb (h.txt p.1) = djb (h.txt kp) → p.1 ≠ 0 ∧ kp ≠ 0) :
    searchOk h m kp = true := by
  unfold searchOk
  apply walkOk_of
  intro e he hne heq
  obtain ⟨h1, h2⟩ := chain_mem r he
  rw [h2] at heq
  have := hs _ h1 hne ((hashKey_eq_iff h e.key kp).mp heq)
  exact ⟨hl _ h1 this.1, this.2⟩

/-- `hashmap_put` with two copies, granted or not. -/
theorem mapPutO_spec {s : St} {L : FMap} {X : List Ptr} {kp vp : Ptr} (g : GoodO s L (vp :: kp :: X))
    (ok : Oks) (hn : kp ≠ 0 → s.heap.txt kp ≠ [])
    (hs : ∀ p ∈ L, p.1 ≠ kp → djb (s.heap.txt p.1) = djb (s.heap.txt kp) → p.1 ≠ 0 ∧ kp ≠ 0) :
    ∃ m' h' L' X', mapPutO s.map s.heap kp vp ok = some (m', h') ∧
      GoodO { s with map := m', heap := h' } L' X' ∧ h'.txt = s.heap.txt ∧
      (∀ p ∈ L', p.1 = kp ∨ ∃ q ∈ L, q.1 = p.1) ∧
      ((known (omap s.heap L) (s.heap.txt kp) = true ∧ X' = kp :: X ∧
          L' = Hashmap.Spec.setVal (cfg s.heap).fnEq L kp vp) ∨
       (known (omap s.heap L) (s.heap.txt kp) = false ∧ (ok.entry = true ∧ L.length < 2 ^ 59) ∧
          X' = X ∧ L' = L ++ [(kp, vp)]) ∨
       (known (omap s.heap L) (s.heap.txt kp) = false ∧ ¬ (ok.entry = true ∧ L.length < 2 ^ 59) ∧
          X' = vp :: kp :: X ∧ L' = L)) := by
  obtain ⟨m', hput, hR⟩ := Hashmap.put_ok (good_cfg s.heap) g.r kp vp ok.entry ok.grow
  have hlk : (cfg s.heap).lock = false := rfl
  have hf := known_lookup s.heap L kp
  unfold mapPutO
  rw [if_pos (search_of g.r kp (fun p hp h => g.mem1 hp h) hs), hput]
  simp only [Hashmap.locked, hlk, Bool.false_eq_true, if_false]
  cases hq : Hashmap.Spec.lookup (cfg s.heap).fnEq L kp with
  | none =>
    rw [hq] at hf
    simp only [Option.isSome_none] at hf
    simp only [Hashmap.Spec.step, hq] at hR ⊢
    have hev : Hashmap.putEvs (cfg s.heap) L kp = [] := by unfold Hashmap.putEvs; rw [hq]
    rw [hev]
    by_cases hyes : ok.entry = true ∧ L.length < 2 ^ 59
    · rw [if_pos hyes] at hR
      refine ⟨m', s.heap, _, X, rfl, ⟨hR, ?_, g.nodup, g.lt, g.pos, g.no0, g.txt0, ?_⟩, rfl, ?_,
        Or.inr (Or.inl ⟨hf, hyes, rfl, rfl⟩)⟩
      · intro a ha
        have := g.live a ha
        simp only [List.count_append, List.count_cons, List.map_append, List.map_cons, List.map_nil,
          List.count_nil] at this ⊢
        omega
      · intro p hp h1
        rcases List.mem_append.mp hp with hp | hp
        · exact g.named p hp h1
        · simp only [List.mem_singleton] at hp
          subst hp; exact hn h1
      · intro p hp
        rcases List.mem_append.mp hp with hp | hp
        · exact Or.inr ⟨p, hp, rfl⟩
        · simp only [List.mem_singleton] at hp
          subst hp; exact Or.inl rfl
    · rw [if_neg hyes] at hR
      exact ⟨m', s.heap, L, _, rfl, ⟨hR, g.live, g.nodup, g.lt, g.pos, g.no0, g.txt0, g.named⟩, rfl,
        fun p hp => Or.inr ⟨p, hp, rfl⟩, Or.inr (Or.inr ⟨hf, hyes, rfl, rfl⟩)⟩
  | some q =>
    rw [hq] at hf
    simp only [Hashmap.Spec.step, hq] at hR ⊢
    have hqL : q ∈ L := List.mem_of_find?_eq_some hq
    obtain ⟨A, B, hAB, hA, hB, hqk⟩ := Hashmap.lookup_split (good_cfg s.heap) g.r.distinct hq
    have hset : Hashmap.Spec.setVal (cfg s.heap).fnEq L kp vp = A ++ ([(q.1, vp)] ++ B) := by
      unfold Hashmap.Spec.setVal
      rw [hAB]
      simp only [List.map_append, List.map_cons, List.map_nil, hqk, if_true]
      congr 1
      · conv => rhs; rw [← List.map_id A]
        apply List.map_congr_left
        intro p hp; simp [hA p hp]
      · congr 1
        conv => rhs; rw [← List.map_id B]
        apply List.map_congr_left
        intro p hp; simp [hB p hp]
    have hkeys : ∀ p ∈ Hashmap.Spec.setVal (cfg s.heap).fnEq L kp vp, ∃ r ∈ L, r.1 = p.1 := by
      intro p hp
      obtain ⟨r, hr, rfl⟩ := List.mem_map.mp hp
      refine ⟨r, hr, ?_⟩
      split <;> rfl
    have hfree : ∃ h', s.heap.applyEvs (Hashmap.putEvs (cfg s.heap) L kp) = some h' ∧
        h'.txt = s.heap.txt ∧ h'.next = s.heap.next ∧ h'.live.Nodup ∧
        (∀ a, a ≠ 0 → h'.live.count a + [q.2].count a = s.heap.live.count a) ∧
        ∀ p ∈ h'.live, p ∈ s.heap.live := by
      unfold Hashmap.putEvs
      rw [hq]
      simp only [Hashmap.freeValEv]
      by_cases hq0 : q.2 = 0
      · rw [if_neg (by simp [hq0])]
        refine ⟨s.heap, rfl, rfl, rfl, g.nodup, ?_, fun p hp => hp⟩
        intro a ha
        rw [hq0, List.count_cons]
        have : (0 == a) = false := by simpa using Ne.symm ha
        rw [this]; simp
      · rw [if_pos ⟨hq0, rfl⟩]
        obtain ⟨h', k1, k2, k3, k4, k5⟩ := StrParams.applyEvs_frees (h := s.heap) [.freeVal q.2] [q.2] g.nodup
          (by intro e he; exact ⟨q.2, Or.inr (by simpa using he)⟩) rfl
          (by intro p hp; simp at hp; rw [hp]; exact g.mem2 hqL hq0) (by simp)
        refine ⟨h', k1, k2, k3, k4, ?_, fun p hp => k5.mem_iff.mp (by simp [hp])⟩
        intro a _
        have := List.perm_iff_count.mp k5 a
        rwa [List.count_append] at this
    obtain ⟨h', k1, k2, k3, k4, k5, hsub⟩ := hfree
    rw [k1]
    refine ⟨m', h', Hashmap.Spec.setVal (cfg s.heap).fnEq L kp vp, kp :: X, rfl,
      ⟨R_congr hR (fun p _ => by rw [k2]), ?_, k4, ?_, ⟨?_, ?_⟩, ?_, ?_, ?_⟩, k2,
      fun p hp => Or.inr (hkeys p hp), Or.inl ⟨hf, rfl, rfl⟩⟩
    · intro a ha
      rw [hset]
      have h1 := g.live a ha
      rw [hAB] at h1
      have h2 := k5 a ha
      simp only [List.count_append, List.count_cons, List.map_append, List.map_cons, List.map_nil,
        List.count_nil] at h1 h2 ⊢
      omega
    · intro p hp; simp only [k3]; exact g.lt _ (hsub p hp)
    · simp only [k3]; exact g.pos.1
    · intro p hp; exact g.pos.2 _ (hsub p hp)
    · intro p hp; simp only [k2]; exact g.no0 _ (hsub p hp)
    · simp only [k2]; exact g.txt0
    · intro p hp h1
      obtain ⟨r, hr, hr1⟩ := hkeys p hp
      simp only [k2, ← hr1]
      exact g.named r hr (by rw [hr1]; exact h1)

end Verif.StrParamsOom
