import Verif.AllocMt.Model
import Verif.Allocator.Props
/-! # What is true in every state of the memory checker under threads -/
namespace Verif.AllocMt
open Verif.Allocator
open Verif.Hashmap (Map kv)
open Verif.Allocator.Spec (Intact tinybird total)

/-- A raw block and what is known about it: user address, size, record, whether it is in the table, which
canaries are in place. -/
structure Claim where
  p : Nat
  n : Nat
  q : Nat
  rc : Option Rec
  tab : Bool
  front : Bool
  back : Bool

/-- The claim of a finished block. -/
def full (b : Blk) (freed : Bool) : Claim := ⟨b.p, b.n, b.q, some ⟨99, b.p, b.n, freed⟩, true, true, true⟩

/-- The block a thread is working on. -/
def claimOf : Pc → Option Claim
  | .ret _ | .mRaw _ | .lGo | .lWalk _ _ _ => none
  | .mGet r n | .mRec r n => some ⟨r + 8, n, 0, none, false, false, false⟩
  | .mPut r n q => some ⟨r + 8, n, q, some ⟨0, 0, 0, false⟩, false, false, false⟩
  | .mId r n q => some ⟨r + 8, n, q, some ⟨0, 0, 0, false⟩, true, false, false⟩
  | .mFreed r n q | .mSize r n q => some ⟨r + 8, n, q, some ⟨99, 0, 0, false⟩, true, false, false⟩
  | .mPtr r n q => some ⟨r + 8, n, q, some ⟨99, 0, n, false⟩, true, false, false⟩
  | .mFront r n q => some ⟨r + 8, n, q, some ⟨99, r + 8, n, false⟩, true, false, false⟩
  | .mBack r n q => some ⟨r + 8, n, q, some ⟨99, r + 8, n, false⟩, true, true, false⟩
  | .fGet b | .fChk b _ | .fMark b _ | .sGet b | .sRead b _ => some (full b false)
  | .fCan b _ | .fRem b => some (full b true)
  | .fRaw b => some ⟨b.p, b.n, 0, none, false, false, false⟩

/-- All blocks. -/
def claims (s : Sys) : List Claim := (s.owned.map fun b => full b false) ++ s.ths.filterMap claimOf

/-- The raw block of a claim. -/
def reg (c : Claim) : Nat × Nat := (c.p - 8, c.n + 16)

/-- The table entry of a claim. -/
def ent (c : Claim) : Nat × Nat := (c.p, c.q)

structure Inv (st : St) (C : List Claim) : Prop where
  map : ∃ m L, st.allocations = some m ∧ Hashmap.R trackerCfg m L ∧ L.Perm ((C.filter (·.tab)).map ent)
  raw : st.raw.Perm (C.map reg)
  p8 : ∀ c ∈ C, 8 < c.p
  disj : C.Pairwise fun a b => disjB (reg a) (reg b) = true
  range : ∀ c ∈ C, c.p + c.n + 8 < 2 ^ 64
  recs : ∀ c ∈ C, ∀ r, c.rc = some r → c.q ≠ 0 ∧ st.recs c.q = some r
  tabrec : ∀ c ∈ C, c.tab = true → c.rc.isSome = true
  nodup : C.Pairwise fun a b => a.rc.isSome = true → b.rc.isSome = true → a.q ≠ b.q
  only : ∀ q, st.recs q ≠ none → ∃ c ∈ C, c.rc.isSome = true ∧ c.q = q
  front : ∀ c ∈ C, c.front = true → ∀ i < 8, st.mem (c.p - 8 + i) = tinybird.getD i 0
  back : ∀ c ∈ C, c.back = true → ∀ i < 8, st.mem (c.p + c.n + i) = tinybird.getD i 0

theorem Inv.perm {st : St} {C C' : List Claim} (h : Inv st C) (hp : C.Perm C') : Inv st C' := by
  obtain ⟨⟨m, L, h1, h2, h3⟩, raw, p8, disj, range, recs, tabrec, nodup, only, front, back⟩ := h
  refine ⟨⟨m, L, h1, h2, h3.trans ((hp.filter _).map _)⟩, raw.trans (hp.map _), fun c hc => p8 c (hp.mem_iff.mpr hc),
    (hp.pairwise_iff fun {a b} h => disjB_symm h).mp disj, fun c hc => range c (hp.mem_iff.mpr hc),
    fun c hc => recs c (hp.mem_iff.mpr hc), fun c hc => tabrec c (hp.mem_iff.mpr hc),
    (hp.pairwise_iff fun {a b} h ha hb e => h hb ha e.symm).mp nodup, ?_,
    fun c hc => front c (hp.mem_iff.mpr hc), fun c hc => back c (hp.mem_iff.mpr hc)⟩
  intro q hq
  obtain ⟨c, hc, x⟩ := only q hq
  exact ⟨c, hp.mem_iff.mp hc, x⟩

theorem disjB_iff {a b : Nat × Nat} : disjB a b = true ↔ a.1 + max a.2 1 ≤ b.1 ∨ b.1 + max b.2 1 ≤ a.1 := by
  simp only [disjB, Bool.or_eq_true, decide_eq_true_eq]

/-! ### Changing one claim -/

section
variable {st : St} {c : Claim} {R : List Claim}

/-- The record of the claim is changed in place. -/
theorem Inv.setRec (h : Inv st (c :: R)) {r : Rec} (hr : c.rc = some r) (f : Rec → Rec) :
    ∃ st', AllocMt.setRec st c.q f = .ok st' ∧ Inv st' ({ c with rc := some (f r) } :: R) ∧
      st'.mem = st.mem ∧ st'.allocations = st.allocations := by
  have hq := (h.recs c (List.mem_cons_self ..) r hr)
  obtain ⟨⟨m, L, h1, h2, h3⟩, raw, p8, disj, range, recs, tabrec, nodup, only, front, back⟩ := h
  rw [List.pairwise_cons] at disj nodup
  refine ⟨{ st with recs := fun x => if x = c.q then some (f r) else st.recs x },
    by unfold AllocMt.setRec; simp only [hq.2], ⟨⟨m, L, h1, h2, ?_⟩, raw, ?_, ?_, ?_, ?_, ?_, ?_, ?_, ?_, ?_⟩, rfl, rfl⟩
  · refine h3.trans ?_
    rw [List.filter_cons, List.filter_cons]
    split <;> exact List.Perm.refl _
  · intro x hx
    rcases List.mem_cons.mp hx with rfl | hx
    · exact p8 c (List.mem_cons_self ..)
    · exact p8 x (List.mem_cons_of_mem _ hx)
  · exact List.pairwise_cons.mpr ⟨fun b hb => disj.1 b hb, disj.2⟩
  · intro x hx
    rcases List.mem_cons.mp hx with rfl | hx
    · exact range c (List.mem_cons_self ..)
    · exact range x (List.mem_cons_of_mem _ hx)
  · intro x hx r' hr'
    rcases List.mem_cons.mp hx with rfl | hx
    · simp only [Option.some.injEq] at hr'
      subst hr'
      exact ⟨hq.1, by simp⟩
    · obtain ⟨ha, hb⟩ := recs x (List.mem_cons_of_mem _ hx) r' hr'
      refine ⟨ha, ?_⟩
      have : x.q ≠ c.q := fun e => nodup.1 x hx (by rw [hr]; rfl) (by rw [hr']; rfl) e.symm
      simp [this, hb]
  · intro x hx ht
    rcases List.mem_cons.mp hx with rfl | hx
    · rfl
    · exact tabrec x (List.mem_cons_of_mem _ hx) ht
  · exact List.pairwise_cons.mpr ⟨fun b hb _ hb' => nodup.1 b hb (by rw [hr]; rfl) hb', nodup.2⟩
  · intro q hq'
    by_cases e : q = c.q
    · exact ⟨_, List.mem_cons_self .., rfl, e.symm⟩
    · have : st.recs q ≠ none := by simpa [e] using hq'
      obtain ⟨x, hx, hx1, hx2⟩ := only q this
      rcases List.mem_cons.mp hx with rfl | hx
      · exact absurd hx2.symm e
      · exact ⟨x, List.mem_cons_of_mem _ hx, hx1, hx2⟩
  · intro x hx
    rcases List.mem_cons.mp hx with rfl | hx
    · exact front c (List.mem_cons_self ..)
    · exact front x (List.mem_cons_of_mem _ hx)
  · intro x hx
    rcases List.mem_cons.mp hx with rfl | hx
    · exact back c (List.mem_cons_self ..)
    · exact back x (List.mem_cons_of_mem _ hx)

/-- A record is allocated for the claim. -/
theorem Inv.newRec (h : Inv st (c :: R)) (hr : c.rc = none) (ht : c.tab = false) {q : Nat} (hq0 : q ≠ 0)
    (hq : st.recs q = none) (r : Rec) :
    Inv { st with recs := fun x => if x = q then some r else st.recs x } ({ c with rc := some r, q := q } :: R) := by
  obtain ⟨⟨m, L, h1, h2, h3⟩, raw, p8, disj, range, recs, tabrec, nodup, only, front, back⟩ := h
  rw [List.pairwise_cons] at disj nodup
  have hne : ∀ x ∈ R, x.rc.isSome = true → x.q ≠ q := by
    intro x hx hs e
    obtain ⟨r', hr'⟩ := Option.isSome_iff_exists.mp hs
    have := (recs x (List.mem_cons_of_mem _ hx) r' hr').2
    rw [e, hq] at this
    cases this
  refine ⟨⟨m, L, h1, h2, ?_⟩, raw, ?_, ?_, ?_, ?_, ?_, ?_, ?_, ?_, ?_⟩
  · refine h3.trans ?_
    rw [List.filter_cons, List.filter_cons]
    simp [ht]
  · intro x hx
    rcases List.mem_cons.mp hx with rfl | hx
    · exact p8 c (List.mem_cons_self ..)
    · exact p8 x (List.mem_cons_of_mem _ hx)
  · exact List.pairwise_cons.mpr ⟨fun b hb => disj.1 b hb, disj.2⟩
  · intro x hx
    rcases List.mem_cons.mp hx with rfl | hx
    · exact range c (List.mem_cons_self ..)
    · exact range x (List.mem_cons_of_mem _ hx)
  · intro x hx r' hr'
    rcases List.mem_cons.mp hx with rfl | hx
    · simp only [Option.some.injEq] at hr'
      subst hr'
      exact ⟨hq0, by simp⟩
    · obtain ⟨ha, hb⟩ := recs x (List.mem_cons_of_mem _ hx) r' hr'
      refine ⟨ha, ?_⟩
      have : x.q ≠ q := hne x hx (by rw [hr']; rfl)
      simp [this, hb]
  · intro x hx ht
    rcases List.mem_cons.mp hx with rfl | hx
    · rfl
    · exact tabrec x (List.mem_cons_of_mem _ hx) ht
  · exact List.pairwise_cons.mpr ⟨fun b hb _ hb' e => hne b hb hb' e.symm, nodup.2⟩
  · intro q' hq'
    by_cases e : q' = q
    · exact ⟨_, List.mem_cons_self .., rfl, e.symm⟩
    · have : st.recs q' ≠ none := by simpa [e] using hq'
      obtain ⟨x, hx, hx1, hx2⟩ := only q' this
      rcases List.mem_cons.mp hx with rfl | hx
      · rw [hr] at hx1; cases hx1
      · exact ⟨x, List.mem_cons_of_mem _ hx, hx1, hx2⟩
  · intro x hx
    rcases List.mem_cons.mp hx with rfl | hx
    · exact front c (List.mem_cons_self ..)
    · exact front x (List.mem_cons_of_mem _ hx)
  · intro x hx
    rcases List.mem_cons.mp hx with rfl | hx
    · exact back c (List.mem_cons_self ..)
    · exact back x (List.mem_cons_of_mem _ hx)

/-- Two blocks have different addresses. -/
theorem Inv.addr (h : Inv st (c :: R)) {x : Claim} (hx : x ∈ R) : x.p ≠ c.p := by
  intro e
  have h1 : disjB (reg c) (reg x) = true := (List.pairwise_cons.mp h.disj).1 x hx
  have h2 := h.p8 c (List.mem_cons_self ..)
  rw [disjB_iff] at h1; simp only [reg] at h1
  omega

/-- A claim that is not in the table is not found there. -/
theorem Inv.get_absent (h : Inv st (c :: R)) (ht : c.tab = false) {m : Map} (hm : st.allocations = some m) :
    Hashmap.get trackerCfg m c.p = some (0, [.acquire, .release]) := by
  obtain ⟨m', L, h1, h2, h3⟩ := h.map
  rw [hm] at h1
  obtain rfl := Option.some.inj h1
  rw [Hashmap.get_ok trackerCfg_good h2]
  unfold Hashmap.Spec.get
  rw [lookup_not_mem]
  · rfl
  · intro x hx
    obtain ⟨y, hy, rfl⟩ := List.mem_map.mp (h3.mem_iff.mp hx)
    rw [List.filter_cons] at hy
    simp only [ht, Bool.false_eq_true, if_false] at hy
    exact h.addr (List.mem_filter.mp hy).1

theorem keys_distinct {m : Map} {L : List (Nat × Nat)} (h : Hashmap.R trackerCfg m L) :
    L.Pairwise (fun a b => a.1 ≠ b.1) :=
  h.distinct.imp (fun {a b} hab => by simpa [trackerCfg] using hab)

theorem lookup_present {m : Map} {L : List (Nat × Nat)} (h : Hashmap.R trackerCfg m L) {x : Nat × Nat} (hx : x ∈ L) :
    Hashmap.Spec.lookup trackerCfg.fnEq L x.1 = some x := find_of_mem (keys_distinct h) hx

/-- A claim in the table is found there. -/
theorem Inv.get_present (h : Inv st (c :: R)) (ht : c.tab = true) {m : Map} (hm : st.allocations = some m) :
    Hashmap.get trackerCfg m c.p = some (c.q, [.acquire, .release]) := by
  obtain ⟨m', L, h1, h2, h3⟩ := h.map
  rw [hm] at h1
  obtain rfl := Option.some.inj h1
  rw [Hashmap.get_ok trackerCfg_good h2]
  unfold Hashmap.Spec.get
  have hmem : (c.p, c.q) ∈ L := h3.mem_iff.mpr (List.mem_map.mpr ⟨c, List.mem_filter.mpr ⟨List.mem_cons_self .., ht⟩, rfl⟩)
  rw [lookup_present h2 hmem]
  rfl

/-- The claim is entered in the table. -/
theorem Inv.put (h : Inv st (c :: R)) (ht : c.tab = false) (hr : c.rc.isSome = true) {m : Map}
    (hm : st.allocations = some m) {ok1 ok2 : Bool} (he : Hashmap.entryOk ok1 m.size = true) :
    ∃ m', Hashmap.put trackerCfg m c.p c.q ok1 ok2 = some (m', 0, [.acquire, .release]) ∧
      Inv { st with allocations := some m' } ({ c with tab := true } :: R) := by
  have hsz : ∀ L, Hashmap.R trackerCfg m L → m.size = L.length := fun L r => r.size_eq
  have hno : ∀ L : List (Nat × Nat), L.Perm (((c :: R).filter (·.tab)).map ent) → ∀ x ∈ L, x.1 ≠ c.p := by
    intro L h3 x hx
    obtain ⟨y, hy, rfl⟩ := List.mem_map.mp (h3.mem_iff.mp hx)
    rw [List.filter_cons] at hy
    simp only [ht, Bool.false_eq_true, if_false] at hy
    exact h.addr (List.mem_filter.mp hy).1
  obtain ⟨⟨m', L, h1, h2, h3⟩, raw, p8, disj, range, recs, tabrec, nodup, only, front, back⟩ := h
  rw [hm] at h1
  obtain rfl := Option.some.inj h1
  obtain ⟨m', hput, hR⟩ := Hashmap.put_ok trackerCfg_good h2 c.p c.q ok1 ok2
  have hlk := lookup_not_mem (hno L h3)
  simp only [Hashmap.entryOk, Bool.and_eq_true, decide_eq_true_eq, hsz L h2] at he
  simp only [Hashmap.Spec.step, hlk, he, and_self, if_true, Hashmap.putEvs] at hput hR
  rw [he.1]
  refine ⟨m', hput, ⟨⟨m', _, rfl, hR, ?_⟩, raw, ?_, ?_, ?_, ?_, ?_, ?_, ?_, ?_, ?_⟩⟩
  · rw [List.filter_cons] at h3
    simp only [ht, Bool.false_eq_true, if_false] at h3
    rw [List.filter_cons]
    simp only [if_true, List.map_cons]
    exact (List.perm_append_comm.trans (h3.cons _) : (L ++ [(c.p, c.q)]).Perm _)
  · intro x hx
    rcases List.mem_cons.mp hx with rfl | hx
    · exact p8 c (List.mem_cons_self ..)
    · exact p8 x (List.mem_cons_of_mem _ hx)
  · rw [List.pairwise_cons] at disj
    exact List.pairwise_cons.mpr ⟨fun b hb => disj.1 b hb, disj.2⟩
  · intro x hx
    rcases List.mem_cons.mp hx with rfl | hx
    · exact range c (List.mem_cons_self ..)
    · exact range x (List.mem_cons_of_mem _ hx)
  · intro x hx
    rcases List.mem_cons.mp hx with rfl | hx
    · exact recs c (List.mem_cons_self ..)
    · exact recs x (List.mem_cons_of_mem _ hx)
  · intro x hx ht
    rcases List.mem_cons.mp hx with rfl | hx
    · exact hr
    · exact tabrec x (List.mem_cons_of_mem _ hx) ht
  · rw [List.pairwise_cons] at nodup
    exact List.pairwise_cons.mpr ⟨fun b hb => nodup.1 b hb, nodup.2⟩
  · intro q hq'
    obtain ⟨x, hx, hx1, hx2⟩ := only q hq'
    rcases List.mem_cons.mp hx with rfl | hx
    · exact ⟨_, List.mem_cons_self .., hx1, hx2⟩
    · exact ⟨x, List.mem_cons_of_mem _ hx, hx1, hx2⟩
  · intro x hx
    rcases List.mem_cons.mp hx with rfl | hx
    · exact front c (List.mem_cons_self ..)
    · exact front x (List.mem_cons_of_mem _ hx)
  · intro x hx
    rcases List.mem_cons.mp hx with rfl | hx
    · exact back c (List.mem_cons_self ..)
    · exact back x (List.mem_cons_of_mem _ hx)

/-- Memory changes inside the claim's block only, in parts that no canary of the claim is in. -/
theorem Inv.setMem (h : Inv st (c :: R)) (mem : Nat → UInt8) (front back : Bool)
    (hout : ∀ a, a < c.p - 8 ∨ c.p + c.n + 8 ≤ a → mem a = st.mem a)
    (hf : front = true → ∀ i < 8, mem (c.p - 8 + i) = tinybird.getD i 0)
    (hb : back = true → ∀ i < 8, mem (c.p + c.n + i) = tinybird.getD i 0) :
    Inv { st with mem := mem } ({ c with front := front, back := back } :: R) := by
  have hdis : ∀ x ∈ R, ∀ a, x.p - 8 ≤ a → a < x.p + x.n + 8 → mem a = st.mem a := by
    intro x hx a h1 h2
    have h3 : disjB (reg c) (reg x) = true := (List.pairwise_cons.mp h.disj).1 x hx
    have h4 := h.p8 c (List.mem_cons_self ..)
    have h5 := h.p8 x (List.mem_cons_of_mem _ hx)
    rw [disjB_iff] at h3; simp only [reg] at h3
    exact hout a (by omega)
  obtain ⟨⟨m, L, h1, h2, h3⟩, raw, p8, disj, range, recs, tabrec, nodup, only, front', back'⟩ := h
  refine ⟨⟨m, L, h1, h2, ?_⟩, raw, ?_, ?_, ?_, ?_, ?_, ?_, ?_, ?_, ?_⟩
  · refine h3.trans ?_
    rw [List.filter_cons, List.filter_cons]
    split <;> exact List.Perm.refl _
  · intro x hx
    rcases List.mem_cons.mp hx with rfl | hx
    · exact p8 c (List.mem_cons_self ..)
    · exact p8 x (List.mem_cons_of_mem _ hx)
  · rw [List.pairwise_cons] at disj
    exact List.pairwise_cons.mpr ⟨fun b hb => disj.1 b hb, disj.2⟩
  · intro x hx
    rcases List.mem_cons.mp hx with rfl | hx
    · exact range c (List.mem_cons_self ..)
    · exact range x (List.mem_cons_of_mem _ hx)
  · intro x hx
    rcases List.mem_cons.mp hx with rfl | hx
    · exact recs c (List.mem_cons_self ..)
    · exact recs x (List.mem_cons_of_mem _ hx)
  · intro x hx
    rcases List.mem_cons.mp hx with rfl | hx
    · exact tabrec c (List.mem_cons_self ..)
    · exact tabrec x (List.mem_cons_of_mem _ hx)
  · rw [List.pairwise_cons] at nodup
    exact List.pairwise_cons.mpr ⟨fun b hb => nodup.1 b hb, nodup.2⟩
  · intro q hq'
    obtain ⟨x, hx, hx1, hx2⟩ := only q hq'
    rcases List.mem_cons.mp hx with rfl | hx
    · exact ⟨_, List.mem_cons_self .., hx1, hx2⟩
    · exact ⟨x, List.mem_cons_of_mem _ hx, hx1, hx2⟩
  · intro x hx hxf i hi
    rcases List.mem_cons.mp hx with rfl | hx
    · exact hf hxf i hi
    · have h5 := p8 x (List.mem_cons_of_mem _ hx)
      show mem _ = _
      rw [hdis x hx _ (by omega) (by omega)]
      exact front' x (List.mem_cons_of_mem _ hx) hxf i hi
  · intro x hx hxf i hi
    rcases List.mem_cons.mp hx with rfl | hx
    · exact hb hxf i hi
    · have h5 := p8 x (List.mem_cons_of_mem _ hx)
      show mem _ = _
      rw [hdis x hx _ (by omega) (by omega)]
      exact back' x (List.mem_cons_of_mem _ hx) hxf i hi

/-- The claim's block can be accessed. -/
theorem Inv.access (h : Inv st (c :: R)) {a n : Nat} (h1 : c.p - 8 ≤ a) (h2 : a + n ≤ c.p + c.n + 8) :
    canAccess st a n = true := by
  have h8 := h.p8 c (List.mem_cons_self ..)
  exact canAccess_of_mem (b := reg c) (h.raw.mem_iff.mpr (List.mem_map.mpr ⟨c, List.mem_cons_self .., rfl⟩))
    (by simp only [reg]; omega) (by simp only [reg]; omega)

/-- The claim leaves the table and its record is released. -/
theorem Inv.remove (h : Inv st (c :: R)) (ht : c.tab = true) {m : Map} (hm : st.allocations = some m) :
    ∃ m' evs recs, Hashmap.remove trackerCfg m c.p = some (m', c.q, evs) ∧ applyFrees evs st.recs = .ok recs ∧
      Inv { st with allocations := some m', recs := recs } (⟨c.p, c.n, 0, none, false, false, false⟩ :: R) := by
  have haddr : ∀ x ∈ R, x.p ≠ c.p := fun x hx => h.addr hx
  obtain ⟨⟨m', L, h1, h2, h3⟩, raw, p8, disj, range, recs, tabrec, nodup, only, front, back⟩ := h
  rw [hm] at h1
  obtain rfl := Option.some.inj h1
  obtain ⟨m', hrem, hR⟩ := Hashmap.remove_ok trackerCfg_good h2 c.p
  have hmem : (c.p, c.q) ∈ L := h3.mem_iff.mpr (List.mem_map.mpr ⟨c, List.mem_filter.mpr ⟨List.mem_cons_self .., ht⟩, rfl⟩)
  have hlk := lookup_present h2 hmem
  obtain ⟨r, hr⟩ := Option.isSome_iff_exists.mp (tabrec c (List.mem_cons_self ..) ht)
  obtain ⟨hq0, hq⟩ := recs c (List.mem_cons_self ..) r hr
  rw [List.pairwise_cons] at disj nodup
  have hevs : Hashmap.locked trackerCfg (Hashmap.removeEvs trackerCfg L c.p) =
      [.acquire, .freeVal c.q, .release] := by
    unfold Hashmap.removeEvs
    rw [hlk]
    simp [Hashmap.freeKeyEv, Hashmap.freeValEv, Hashmap.locked, trackerCfg, hq0]
  have hget : Hashmap.Spec.get trackerCfg.fnEq L c.p = c.q := by
    unfold Hashmap.Spec.get
    rw [hlk]
  rw [hevs, hget] at hrem
  refine ⟨m', _, fun x => if x = c.q then none else st.recs x, hrem, ?_, ⟨⟨m', _, rfl, hR, ?_⟩, raw, ?_, ?_, ?_, ?_, ?_, ?_, ?_, ?_, ?_⟩⟩
  · simp [applyFrees, hq]
  · have e : Hashmap.Spec.erase trackerCfg.fnEq L c.p = L.filter fun x => x.1 != c.p := erase_eq L c.p
    rw [e]
    have h4 := h3.filter fun x => x.1 != c.p
    refine h4.trans ?_
    rw [List.filter_cons, List.filter_cons]
    simp only [ht, if_true, Bool.false_eq_true, if_false, List.map_cons, ent]
    rw [List.filter_cons]
    simp only [bne_self_eq_false, Bool.false_eq_true, if_false]
    rw [List.filter_eq_self.mpr]
    intro x hx
    obtain ⟨y, hy, rfl⟩ := List.mem_map.mp hx
    simpa [ent] using haddr y (List.mem_filter.mp hy).1
  · intro x hx
    rcases List.mem_cons.mp hx with rfl | hx
    · exact p8 c (List.mem_cons_self ..)
    · exact p8 x (List.mem_cons_of_mem _ hx)
  · exact List.pairwise_cons.mpr ⟨fun b hb => disj.1 b hb, disj.2⟩
  · intro x hx
    rcases List.mem_cons.mp hx with rfl | hx
    · exact range c (List.mem_cons_self ..)
    · exact range x (List.mem_cons_of_mem _ hx)
  · intro x hx r' hr'
    rcases List.mem_cons.mp hx with rfl | hx
    · cases hr'
    · obtain ⟨ha, hb⟩ := recs x (List.mem_cons_of_mem _ hx) r' hr'
      refine ⟨ha, ?_⟩
      have : x.q ≠ c.q := fun e => nodup.1 x hx (by rw [hr]; rfl) (by rw [hr']; rfl) e.symm
      simp [this, hb]
  · intro x hx ht
    rcases List.mem_cons.mp hx with rfl | hx
    · cases ht
    · exact tabrec x (List.mem_cons_of_mem _ hx) ht
  · exact List.pairwise_cons.mpr ⟨fun b hb hs => by simp at hs, nodup.2⟩
  · intro q hq'
    by_cases e : q = c.q
    · exact absurd (by simp [e]) hq'
    · have : st.recs q ≠ none := by simpa [e] using hq'
      obtain ⟨x, hx, hx1, hx2⟩ := only q this
      rcases List.mem_cons.mp hx with rfl | hx
      · exact absurd hx2.symm e
      · exact ⟨x, List.mem_cons_of_mem _ hx, hx1, hx2⟩
  · intro x hx hf
    rcases List.mem_cons.mp hx with rfl | hx
    · cases hf
    · exact front x (List.mem_cons_of_mem _ hx) hf
  · intro x hx hf
    rcases List.mem_cons.mp hx with rfl | hx
    · cases hf
    · exact back x (List.mem_cons_of_mem _ hx) hf

/-- The raw block is given back. -/
theorem Inv.drop (h : Inv st (c :: R)) (hr : c.rc = none) (ht : c.tab = false) :
    ∃ st', rawFree st (c.p - 8) = .ok st' ∧ Inv st' R ∧ st'.mem = st.mem ∧ st'.allocations = st.allocations := by
  have h8 := h.p8 c (List.mem_cons_self ..)
  have haddr : ∀ x ∈ R, x.p - 8 ≠ c.p - 8 := by
    intro x hx e
    have := h.p8 x (List.mem_cons_of_mem _ hx)
    exact h.addr hx (by omega)
  obtain ⟨⟨m, L, h1, h2, h3⟩, raw, p8, disj, range, recs, tabrec, nodup, only, front, back⟩ := h
  rw [List.pairwise_cons] at disj nodup
  have hany : st.raw.any (fun b => b.1 == c.p - 8) = true := by
    rw [List.any_eq_true]
    exact ⟨reg c, raw.mem_iff.mpr (List.mem_map.mpr ⟨c, List.mem_cons_self .., rfl⟩), by simp [reg]⟩
  refine ⟨{ st with raw := st.raw.filter (fun b => b.1 != c.p - 8) },
    by unfold rawFree; rw [if_neg (by omega), if_pos hany], ⟨⟨m, L, h1, h2, ?_⟩, ?_, fun x hx => p8 x (List.mem_cons_of_mem _ hx),
    disj.2, fun x hx => range x (List.mem_cons_of_mem _ hx), fun x hx => recs x (List.mem_cons_of_mem _ hx),
    fun x hx => tabrec x (List.mem_cons_of_mem _ hx), nodup.2, ?_, fun x hx => front x (List.mem_cons_of_mem _ hx),
    fun x hx => back x (List.mem_cons_of_mem _ hx)⟩, rfl, rfl⟩
  · refine h3.trans ?_
    rw [List.filter_cons]
    simp [ht]
  · refine (raw.filter _).trans ?_
    rw [List.map_cons, List.filter_cons]
    simp only [reg, bne_self_eq_false, Bool.false_eq_true, if_false]
    rw [List.filter_eq_self.mpr]
    intro x hx
    obtain ⟨y, hy, rfl⟩ := List.mem_map.mp hx
    simpa [reg] using haddr y hy
  · intro q hq
    obtain ⟨x, hx, hx1, hx2⟩ := only q hq
    rcases List.mem_cons.mp hx with rfl | hx
    · rw [hr] at hx1; cases hx1
    · exact ⟨x, hx, hx1, hx2⟩

/-- A raw block is lent. -/
theorem Inv.add (h : Inv st R) {r n : Nat} {junk : Nat → UInt8} (hr : r ≠ 0) (hn : r + max (n + 16) 1 < 2 ^ 64)
    (hd : ∀ b ∈ st.raw, disjB (r, n + 16) b = true) :
    Inv { st with
        mem := fun a => if r ≤ a ∧ a < r + (n + 16) then junk a else st.mem a
        raw := st.raw ++ [(r, n + 16)] } (⟨r + 8, n, 0, none, false, false, false⟩ :: R) := by
  have hdis : ∀ x ∈ R, ∀ a, x.p - 8 ≤ a → a < x.p + x.n + 8 → ¬ (r ≤ a ∧ a < r + (n + 16)) := by
    intro x hx a h1 h2
    have h3 := hd (reg x) (h.raw.mem_iff.mpr (List.mem_map.mpr ⟨x, hx, rfl⟩))
    have h5 := h.p8 x hx
    rw [disjB_iff] at h3; simp only [reg] at h3
    omega
  obtain ⟨⟨m, L, h1, h2, h3⟩, raw, p8, disj, range, recs, tabrec, nodup, only, front, back⟩ := h
  refine ⟨⟨m, L, h1, h2, ?_⟩, ?_, ?_, ?_, ?_, ?_, ?_, ?_, ?_, ?_, ?_⟩
  · rw [List.filter_cons]
    simpa using h3
  · rw [List.map_cons]
    have : reg ⟨r + 8, n, 0, none, false, false, false⟩ = (r, n + 16) := by simp [reg]
    rw [this]
    exact List.perm_append_comm.trans (raw.cons _)
  · intro x hx
    rcases List.mem_cons.mp hx with rfl | hx
    · simp only; omega
    · exact p8 x hx
  · refine List.pairwise_cons.mpr ⟨fun b hb => ?_, disj⟩
    have := hd (reg b) (raw.mem_iff.mpr (List.mem_map.mpr ⟨b, hb, rfl⟩))
    simpa [reg] using this
  · intro x hx
    rcases List.mem_cons.mp hx with rfl | hx
    · simp only; omega
    · exact range x hx
  · intro x hx r' hr'
    rcases List.mem_cons.mp hx with rfl | hx
    · cases hr'
    · exact recs x hx r' hr'
  · intro x hx ht
    rcases List.mem_cons.mp hx with rfl | hx
    · cases ht
    · exact tabrec x hx ht
  · exact List.pairwise_cons.mpr ⟨fun b hb hs => by simp at hs, nodup⟩
  · intro q hq
    obtain ⟨x, hx, y⟩ := only q hq
    exact ⟨x, List.mem_cons_of_mem _ hx, y⟩
  · intro x hx hf i hi
    rcases List.mem_cons.mp hx with rfl | hx
    · cases hf
    · have h5 := p8 x hx
      simp only [if_neg (hdis x hx (x.p - 8 + i) (by omega) (by omega))]
      exact front x hx hf i hi
  · intro x hx hf i hi
    rcases List.mem_cons.mp hx with rfl | hx
    · cases hf
    · have h5 := p8 x hx
      simp only [if_neg (hdis x hx (x.p + x.n + i) (by omega) (by omega))]
      exact back x hx hf i hi

end

/-- A full block passes the check. -/
theorem Inv.check {st : St} {C : List Claim} (h : Inv st C) {b : Blk} {fr : Bool} (hb : full b fr ∈ C) :
    corruptionCheck st ⟨99, b.p, b.n, fr⟩ = .ok () := by
  have h8 : 8 < b.p := h.p8 _ hb
  refine (corruptionCheck_ok (by simp only; omega) ?_).1 ?_
  · exact h.raw.mem_iff.mpr (List.mem_map.mpr ⟨_, hb, rfl⟩)
  · intro i hi
    exact ⟨h.front _ hb rfl i hi, h.back _ hb rfl i hi⟩

end Verif.AllocMt
