import Verif.Allocator.Core
namespace Verif.Allocator
open Verif.Hashmap (Ptr Cfg Map Ev Entry kv)
open Spec (Intact tinybird total)

theorem rawMalloc_cases (s : St) (n r : Nat) (junk : Nat → UInt8) :
    rawMalloc s n r junk = (s, 0) ∨
    (r ≠ 0 ∧ r + max n 1 < 2 ^ 64 ∧ (∀ b ∈ s.raw, disjB (r, n) b = true) ∧
      rawMalloc s n r junk = ({ s with
        mem := fun a => if r ≤ a ∧ a < r + n then junk a else s.mem a
        raw := s.raw ++ [(r, n)] }, r)) := by
  unfold rawMalloc
  split
  · rename_i h
    exact Or.inr ⟨h.1, h.2.1, List.all_eq_true.mp h.2.2, rfl⟩
  · exact Or.inl rfl

/-- What a successful tracked allocation of `size` bytes at raw address `r` does. -/
structure Allocated (s : St) (L : List (Nat × Nat)) (r size q : Nat) (junk : Nat → UInt8) (s' : St) :
    Prop where
  rel : ∃ m', Rel s' m' (L ++ [(r + 8, q)])
  recs : s'.recs = fun x => if x = q then some ⟨99, r + 8, size, false⟩ else s.recs x
  raw : s'.raw = s.raw ++ [(r, size + 16)]
  other : ∀ a, a < r ∨ r + size + 16 ≤ a → s'.mem a = s.mem a
  fill : ∀ i < size, s'.mem (r + 8 + i) = junk (r + 8 + i)
  intact : Intact s'.mem (r + 8, size)
  nz : r ≠ 0
  fits : r + size + 16 < 2 ^ 64
  disj : ∀ b ∈ s.raw, disjB (r, size + 16) b = true

theorem alloc_ok {s : St} {m : Map} {L : List (Nat × Nat)} (h : Rel s m L) (size : Nat)
    (e : Env) (junk : Nat → UInt8) (he : e.entryOk = true) (hL : L.length < 2 ^ 59) :
    rawMalloc s (size + 16) e.r junk = (s, 0) ∨
    ((rawMalloc s (size + 16) e.r junk).2 = e.r ∧ e.r ≠ 0 ∧
      ((¬ (e.q ≠ 0 ∧ s.recs e.q = none) ∧
          notifyAlloc (rawMalloc s (size + 16) e.r junk).1 99 e.r size e = .abort) ∨
       (e.q ≠ 0 ∧ s.recs e.q = none ∧
          ∃ s', notifyAlloc (rawMalloc s (size + 16) e.r junk).1 99 e.r size e = .ok (s', e.r + 8) ∧
          Allocated s L e.r size e.q junk s'))) := by
  rcases rawMalloc_cases s (size + 16) e.r junk with h1 | ⟨hr0, hrn, hdis, h1⟩
  · exact Or.inl h1
  refine Or.inr ?_
  rw [h1]
  refine ⟨rfl, hr0, ?_⟩
  have hkey : ∀ x ∈ L, x.1 ≠ e.r + 8 := by
    intro x hx hxe
    obtain ⟨h8, hraw⟩ := h.live x hx
    have := hdis _ hraw
    simp only [disjB, Bool.or_eq_true, decide_eq_true_eq] at this
    omega
  have hget := get_not_mem h hkey
  by_cases hq : e.q ≠ 0 ∧ s.recs e.q = none
  · refine Or.inr ⟨hq.1, hq.2, ?_⟩
    obtain ⟨m', hput, hR⟩ := Hashmap.put_ok trackerCfg_good h.map (e.r + 8) e.q e.entryOk e.growOk
    have hlk := lookup_not_mem hkey
    simp only [Hashmap.Spec.step, hlk, he, hL, and_self, if_true, Hashmap.putEvs] at hput hR
    have hput' : Hashmap.put trackerCfg m (e.r + 8) e.q true e.growOk =
        some (m', 0, [.acquire, .release]) := hput
    let s2 : St := ⟨some m', fun a => if e.r ≤ a ∧ a < e.r + (size + 16) then junk a else s.mem a,
      s.raw ++ [(e.r, size + 16)],
      fun x => if x = e.q then some ⟨99, e.r + 8, size, false⟩ else s.recs x⟩
    have hmem : (e.r, size + 16) ∈ s2.raw := by simp [s2]
    let s3 : St := { s2 with mem := fun x =>
      if e.r ≤ x ∧ x < e.r + canary.length then canary.getD (x - e.r) 0 else s2.mem x }
    have hs3 : store s2 e.r canary = .ok s3 := by
      unfold store
      rw [if_pos (Or.inr (canAccess_of_mem hmem (by simp only; omega) (by simp only [canary]; simp)))]
    let s4 : St := { s3 with mem := (fun x =>
      if e.r + 8 + size ≤ x ∧ x < e.r + 8 + size + canary.length
      then canary.getD (x - (e.r + 8 + size)) 0 else s3.mem x) }
    have hs4 : store s3 (e.r + 8 + size) canary = .ok s4 := by
      unfold store
      rw [if_pos (Or.inr (canAccess_of_mem (s := s3) (b := (e.r, size + 16)) hmem
        (by simp only; omega) (by simp only [canary]; simp; omega)))]
    have hc8 : canary.length = 8 := rfl
    refine ⟨s4, ?_, ?_⟩
    · unfold notifyAlloc
      simp only [h.on, if_neg hr0, canarySize_eq, hget, Res.ofOption, Res.bind, ne_eq,
        not_true_eq_false, if_false, hq.1, hq.2, Option.isSome_none, Bool.false_eq_true, or_self,
        he, hput', applyFrees, Nat.add_sub_cancel, fillRec]
      have : store s2 e.r canary = .ok s3 := hs3
      simp only [s2] at this
      rw [this]
      simp only
      rw [hs4]
    · have hszq : sz s4 e.q = size := by simp [sz, s4, s3, s2]
      have hneq : ∀ x ∈ L, x.2 ≠ e.q := by
        intro x hx hxe
        have := h.recs x hx
        rw [hxe, hq.2] at this
        cases this
      have hszo : ∀ x ∈ L, sz s4 x.2 = sz s x.2 := by
        intro x hx
        simp [sz, s4, s3, s2, hneq x hx]
      refine ⟨⟨m', ?_⟩, rfl, rfl, ?_, ?_, ?_, hr0, by omega, hdis⟩
      · refine ⟨rfl, hR, ?_, ?_, ?_, ?_, ?_, ?_, ?_⟩
        · intro x hx
          rcases List.mem_append.mp hx with hx | hx
          · exact h.nz x hx
          · simp only [List.mem_singleton] at hx; subst hx; exact hq.1
        · intro x hx
          rcases List.mem_append.mp hx with hx | hx
          · have : s4.recs x.2 = s.recs x.2 := by simp [s4, s3, s2, hneq x hx]
            rw [this, hszo x hx]
            exact h.recs x hx
          · simp only [List.mem_singleton] at hx; subst hx
            simp only [hszq]
            simp [s4, s3, s2]
        · rw [List.map_append, List.nodup_append]
          refine ⟨h.ndv, by simp, ?_⟩
          intro a ha b hb
          obtain ⟨x, hx, rfl⟩ := List.mem_map.mp ha
          simp only [List.map_cons, List.map_nil, List.mem_singleton] at hb
          subst hb
          exact hneq x hx
        · intro x hx
          rcases List.mem_append.mp hx with hx | hx
          · rw [hszo x hx]
            exact ⟨(h.live x hx).1, List.mem_append_left _ (h.live x hx).2⟩
          · simp only [List.mem_singleton] at hx; subst hx
            simp only [hszq]
            refine ⟨by omega, ?_⟩
            rw [Nat.add_sub_cancel]
            exact List.mem_append_right _ (List.mem_singleton.mpr rfl)
        · show (s.raw ++ [(e.r, size + 16)]).Pairwise _
          rw [List.pairwise_append]
          refine ⟨h.disj, by simp, ?_⟩
          intro a ha b hb
          simp only [List.mem_singleton] at hb
          subst hb
          exact disjB_symm (hdis a ha)
        · intro b hb
          rcases List.mem_append.mp hb with hb | hb
          · exact h.range b hb
          · simp only [List.mem_singleton] at hb; subst hb
            exact ⟨hr0, hrn⟩
        · intro x hx
          have hx' : (if x = e.q then some (⟨99, e.r + 8, size, false⟩ : Rec) else s.recs x) ≠ none := hx
          rw [List.map_append, List.mem_append]
          by_cases hxq : x = e.q
          · right; simp [hxq]
          · rw [if_neg hxq] at hx'
            exact .inl (h.only x hx')
      · intro a ha
        simp only [s4, s3, s2, hc8]
        rw [if_neg (by omega), if_neg (by omega), if_neg (by omega)]
      · intro i hi
        simp only [s4, s3, s2, hc8]
        rw [if_neg (by omega), if_neg (by omega), if_pos (by omega)]
      · intro i hi
        have ht8 : tinybird.length = 8 := by decide
        simp only [s4, s3, s2, canary_eq, ht8]
        constructor
        · rw [if_neg (by omega), if_pos (by omega)]
          congr 1
          omega
        · rw [if_pos (by omega)]
          congr 1
          omega
  · refine Or.inl ⟨hq, ?_⟩
    unfold notifyAlloc
    have : e.q = 0 ∨ (s.recs e.q).isSome = true := by
      by_cases h0 : e.q = 0
      · exact Or.inl h0
      · refine Or.inr ?_
        cases hh : s.recs e.q with
        | none => exact absurd ⟨h0, hh⟩ hq
        | some _ => rfl
    simp only [h.on, if_neg hr0, canarySize_eq, hget, Res.ofOption, Res.bind, ne_eq,
        not_true_eq_false, if_false, this, if_true]

/-! ### free -/

theorem erase_eq (L : List (Nat × Nat)) (p : Nat) :
    Hashmap.Spec.erase trackerCfg.fnEq L p = L.filter (fun b => b.1 != p) := rfl

/-- What a successful tracked free of `p` does. -/
structure Freed (s : St) (L : List (Nat × Nat)) (p q : Nat) (s' : St) : Prop where
  rel : ∃ m', Rel s' m' (L.filter fun b => b.1 != p)
  recs : s'.recs = fun x => if x = q then none else s.recs x
  raw : s'.raw = s.raw.filter fun b => b.1 != p - 8
  mem : s'.mem = s.mem

theorem free_ok {s : St} {m : Map} {L : List (Nat × Nat)} (h : Rel s m L) {p q : Nat}
    (hp : (p, q) ∈ L) :
    (Intact s.mem (p, sz s q) → ∃ s', lcuFree s p = .ok s' ∧ Freed s L p q s') ∧
    (¬ Intact s.mem (p, sz s q) → lcuFree s p = .abort) := by
  have hget := get_mem h hp
  have hrec := h.recs _ hp
  obtain ⟨h8, hraw⟩ := h.live _ hp
  have hnz := h.nz _ hp
  simp only at hget hrec h8 hraw hnz
  have hp0 : p ≠ 0 := by omega
  let s1 : St := { s with recs := fun x => if x = q then some ⟨99, p, sz s q, true⟩ else s.recs x }
  have hc := corruptionCheck_ok (s := s1) (a := ⟨99, p, sz s q, true⟩) (by simp only; omega) hraw
  simp only at hc
  have hm : s1.mem = s.mem := rfl
  rw [hm] at hc
  constructor
  · intro hi
    obtain ⟨m', hrem, hR⟩ := Hashmap.remove_ok trackerCfg_good h.map p
    rw [erase_eq] at hR
    have hlk : Hashmap.Spec.lookup trackerCfg.fnEq L p = some (p, q) := lookup_mem h hp
    have hev : Hashmap.locked trackerCfg (Hashmap.removeEvs trackerCfg L p) =
        [.acquire, .freeVal q, .release] := by
      simp only [Hashmap.removeEvs, hlk, Hashmap.freeKeyEv, Hashmap.freeValEv, Hashmap.locked]
      simp [trackerCfg, hnz]
    rw [hev] at hrem
    let recs' : Nat → Option Rec := fun x => if x = q then none else s1.recs x
    let s' : St := ⟨some m', s.mem, s.raw.filter (fun b => b.1 != p - 8), recs'⟩
    refine ⟨s', ?_, ?_⟩
    · unfold lcuFree notifyFree
      have hk := hc.1 hi
      simp only [s1, h.on] at hk
      simp only [if_neg hp0, h.on, hget, Res.ofOption, Res.bind, if_neg hnz, hrec, allocatorId,
        Bool.false_eq_true, if_false, ne_eq, not_true_eq_false, hk, hrem, applyFrees, if_true,
        canarySize_eq]
      have h9 : p - 8 ≠ 0 := by omega
      rw [if_pos h9]
      unfold rawFree
      have hany : s.raw.any (fun b => b.1 == p - 8) = true := by
        rw [List.any_eq_true]
        exact ⟨_, hraw, by simp⟩
      simp only [if_neg h9, hany, if_true]
      simp only [s', recs', s1]
    · have hrecs : s'.recs = fun x => if x = q then none else s.recs x := by
        funext x
        simp only [s', recs', s1]
        by_cases hx : x = q <;> simp [hx]
      have hmem' : ∀ x ∈ L.filter (fun b => b.1 != p), x ∈ L ∧ x.1 ≠ p ∧ x.2 ≠ q := by
        intro x hx
        obtain ⟨hx1, hx2⟩ := List.mem_filter.mp hx
        have hne : x.1 ≠ p := by simpa using hx2
        refine ⟨hx1, hne, fun hq => ?_⟩
        have := map_ndv h.ndv hx1 hp hq
        rw [this] at hne
        exact hne rfl
      have hszo : ∀ x ∈ L.filter (fun b => b.1 != p), sz s' x.2 = sz s x.2 := by
        intro x hx
        simp [sz, hrecs, (hmem' x hx).2.2]
      refine ⟨⟨m', ⟨rfl, hR, ?_, ?_, ?_, ?_, ?_, ?_, ?_⟩⟩, hrecs, rfl, rfl⟩
      · intro x hx; exact h.nz x (hmem' x hx).1
      · intro x hx
        rw [hszo x hx, hrecs]
        simp only [(hmem' x hx).2.2, if_false]
        exact h.recs x (hmem' x hx).1
      · exact h.ndv.sublist (List.filter_sublist.map _)
      · intro x hx
        rw [hszo x hx]
        obtain ⟨hx1, hx2, _⟩ := hmem' x hx
        obtain ⟨g8, graw⟩ := h.live x hx1
        refine ⟨g8, List.mem_filter.mpr ⟨graw, ?_⟩⟩
        simp only [bne_iff_ne, ne_eq]
        omega
      · exact h.disj.sublist List.filter_sublist
      · intro b hb
        exact h.range b (List.mem_filter.mp hb).1
      · intro x hx
        rw [hrecs] at hx
        simp only [ne_eq, ite_eq_left_iff, Classical.not_imp] at hx
        obtain ⟨y, hy, rfl⟩ := List.mem_map.mp (h.only x hx.2)
        refine List.mem_map.mpr ⟨y, List.mem_filter.mpr ⟨hy, ?_⟩, rfl⟩
        simp only [bne_iff_ne, ne_eq]
        intro hyp
        obtain ⟨y1, y2⟩ := y
        simp only at hyp
        subst hyp
        have := lookup_mem h hy
        rw [hlk] at this
        simp only [Option.some.injEq, Prod.mk.injEq, true_and] at this
        exact hx.1 this.symm
  · intro hi
    unfold lcuFree notifyFree
    have hk := hc.2 hi
    simp only [s1, h.on] at hk
    simp only [if_neg hp0, h.on, hget, Res.ofOption, Res.bind, if_neg hnz, hrec, allocatorId,
        Bool.false_eq_true, if_false, ne_eq, not_true_eq_false, hk]

/-- Freeing anything the tracker does not know aborts. -/
theorem free_unknown {s : St} {m : Map} {L : List (Nat × Nat)} (h : Rel s m L) {p : Nat}
    (hp0 : p ≠ 0) (hp : ∀ x ∈ L, x.1 ≠ p) : lcuFree s p = .abort := by
  unfold lcuFree notifyFree
  simp only [if_neg hp0, h.on, get_not_mem h hp, Res.ofOption, Res.bind, if_true]

theorem ptrSize_ok {s : St} {m : Map} {L : List (Nat × Nat)} (h : Rel s m L) {p q : Nat}
    (hp : (p, q) ∈ L) : ptrSize s allocatorId p = .ok (sz s q) := by
  have hget := get_mem h hp
  have hrec := h.recs _ hp
  have h8 := (h.live _ hp).1
  have hnz := h.nz _ hp
  simp only at hget hrec h8 hnz
  unfold ptrSize
  have hp0 : p ≠ 0 := by omega
  simp only [h.on, hget, Res.ofOption, Res.bind, if_neg hnz, if_neg hp0, hrec, allocatorId, ne_eq,
    not_true_eq_false, if_false]

theorem ptrSize_unknown {s : St} {m : Map} {L : List (Nat × Nat)} (h : Rel s m L) {p : Nat}
    (hp0 : p ≠ 0) (hp : ∀ x ∈ L, x.1 ≠ p) : ptrSize s allocatorId p = .abort := by
  unfold ptrSize
  simp only [h.on, get_not_mem h hp, Res.ofOption, Res.bind, if_neg hp0, if_true]

/-! ### stores and reset -/

theorem store_ok {s : St} {a : Nat} {bs : List UInt8} (h : bs = [] ∨ canAccess s a bs.length = true) :
    store s a bs = .ok { s with mem := fun x =>
      if a ≤ x ∧ x < a + bs.length then bs.getD (x - a) 0 else s.mem x } := by
  unfold store
  rw [if_pos h]

theorem Rel.setMem {s : St} {m : Map} {L : List (Nat × Nat)} (h : Rel s m L) (f : Nat → UInt8) :
    Rel { s with mem := f } m L :=
  ⟨h.on, h.map, h.nz, h.recs, h.ndv, h.live, h.disj, h.range, h.only⟩

theorem applyFrees_vals : ∀ (E : List Nat) (recs : Nat → Option Rec),
    (∀ x ∈ E, recs x ≠ none) → E.Nodup →
    applyFrees (E.map .freeVal ++ [.release]) recs =
      .ok (fun x => if x ∈ E then none else recs x) := by
  intro E
  induction E with
  | nil => intro recs _ _; simp [applyFrees]
  | cons y ys ih =>
    intro recs h1 h2
    have hy := h1 y (List.mem_cons_self ..)
    rw [List.nodup_cons] at h2
    simp only [List.map_cons, List.cons_append, applyFrees]
    cases hh : recs y with
    | none => exact absurd hh hy
    | some _ =>
      simp only
      rw [ih _ ?_ h2.2]
      · congr 1
        funext x
        simp only [List.mem_cons]
        by_cases hx1 : x ∈ ys <;> by_cases hx2 : x = y <;> simp [hx1, hx2]
      · intro x hx
        have : x ≠ y := fun e => h2.1 (e ▸ hx)
        simp only [this, if_false]
        exact h1 x (List.mem_cons_of_mem _ hx)

/-- The record address in a release event. -/
def valOf : Ev → Nat
  | .freeVal q => q
  | _ => 0

theorem clearEvs {L : List (Nat × Nat)} (hnz : ∀ x ∈ L, x.2 ≠ 0) {evs : List Ev}
    (h : evs.Perm (Hashmap.freeEvs trackerCfg L)) :
    ∃ E : List Nat, evs = E.map .freeVal ∧ E.Perm (L.map (·.2)) := by
  have h0 : Hashmap.freeEvs trackerCfg L = (L.map (·.2)).map .freeVal := by
    unfold Hashmap.freeEvs
    clear h
    induction L with
    | nil => rfl
    | cons x xs ih =>
      rw [List.flatMap_cons, ih fun y hy => hnz y (List.mem_cons_of_mem _ hy)]
      have := hnz x (List.mem_cons_self ..)
      simp [Hashmap.freeKeyEv, Hashmap.freeValEv, trackerCfg, this]
  rw [h0] at h
  refine ⟨evs.map valOf, ?_, ?_⟩
  · rw [List.map_map]
    have : ∀ e ∈ evs, (Ev.freeVal ∘ valOf) e = e := by
      intro e he
      obtain ⟨q, _, rfl⟩ := List.mem_map.mp (h.mem_iff.mp he)
      rfl
    rw [List.map_congr_left this]
    simp
  · have := h.map valOf
    rw [List.map_map] at this
    simpa [Function.comp_def, valOf] using this

theorem reset_ok {s : St} {m : Map} {L : List (Nat × Nat)} (h : Rel s m L) :
    ∃ s' m', trackerReset s = .ok s' ∧ Rel s' m' [] ∧ s'.mem = s.mem ∧ s'.raw = s.raw ∧
      s'.recs = fun x => if x ∈ L.map (·.2) then none else s.recs x := by
  obtain ⟨m', evs, h1, _, h2, h3⟩ := Hashmap.clear_ok h.map
  obtain ⟨E, rfl, hE⟩ := clearEvs h.nz h3
  have h4 := applyFrees_vals E s.recs (by
    intro x hx
    obtain ⟨y, hy, rfl⟩ := List.mem_map.mp (hE.mem_iff.mp hx)
    rw [h.recs y hy]; simp) (hE.nodup_iff.mpr h.ndv)
  have h5 : (fun x => if x ∈ E then none else s.recs x) =
      fun x => if x ∈ L.map (·.2) then none else s.recs x := by
    funext x; simp only [hE.mem_iff]
  rw [h5] at h4
  refine ⟨⟨some m', s.mem, s.raw, fun x => if x ∈ L.map (·.2) then none else s.recs x⟩, m', ?_, ?_,
    rfl, rfl, rfl⟩
  · unfold trackerReset
    simp only [h.on, h1, Res.ofOption, Res.bind]
    have : Hashmap.locked trackerCfg (E.map Ev.freeVal) = .acquire :: (E.map Ev.freeVal ++ [.release]) := rfl
    rw [this]
    simp only [applyFrees, h4]
  · exact ⟨rfl, h2, by simp, by simp, by simp, by simp, h.disj, h.range, fun q hq => by
      simp only [ne_eq, ite_eq_left_iff, Classical.not_imp] at hq
      exact absurd (h.only q hq.2) hq.1⟩

/-- Switching the tracker off releases all its records. -/
theorem uninit_ok {s : St} {m : Map} {L : List (Nat × Nat)} (h : Rel s m L) :
    ∃ s', trackerUninit s = .ok s' ∧ s'.allocations = none ∧ s'.mem = s.mem ∧ s'.raw = s.raw ∧ s'.recs = fun _ => none := by
  obtain ⟨m', evs, _, h1, h2, h3⟩ := Hashmap.clear_ok h.map
  obtain ⟨E, rfl, hE⟩ := clearEvs h.nz h3
  have h4 := applyFrees_vals E s.recs (by
    intro x hx
    obtain ⟨y, hy, rfl⟩ := List.mem_map.mp (hE.mem_iff.mp hx)
    rw [h.recs y hy]; simp) (hE.nodup_iff.mpr h.ndv)
  refine ⟨⟨none, s.mem, s.raw, fun _ => none⟩, ?_, rfl, rfl, rfl, rfl⟩
  unfold trackerUninit
  simp only [h.on, h1, Res.ofOption, Res.bind]
  have : Hashmap.locked trackerCfg (E.map Ev.freeVal) = .acquire :: (E.map Ev.freeVal ++ [.release]) := rfl
  rw [this]
  simp only [applyFrees, h4]
  congr 2
  funext x
  by_cases hx : x ∈ E
  · simp [hx]
  · simp only [hx, if_false]
    cases hr : s.recs x with
    | none => rfl
    | some _ => exact absurd (hE.mem_iff.mpr (h.only x (by simp [hr]))) hx

end Verif.Allocator
