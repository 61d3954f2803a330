import Verif.AllocMt.Step
namespace Verif.AllocMt
open Verif.Allocator
open Verif.Hashmap (Map kv)
open Verif.Allocator.Spec (Intact tinybird total)

theorem claims_owned {s : Sys} {i : Nat} {pc : Pc} (h : s.ths[i]? = some pc) (pc' : Pc) (st : St) (b : Blk)
    (hp : claimOf pc' = none) :
    (claims ⟨st, s.ths.set i pc', s.owned ++ [b], s.lock⟩).Perm (full b false :: rest s i) := by
  have := filterMap_set h pc'
  rw [hp] at this
  unfold claims rest
  simp only [List.map_append, List.map_cons, List.map_nil, List.append_assoc]
  refine (List.Perm.append_left _ (List.Perm.append_left _ this)).trans ?_
  simp only [Option.toList_none, List.nil_append, List.cons_append]
  exact List.perm_middle

theorem table_some {s : Sys} (h : SInv s) : ∃ m, s.st.allocations = some m := by
  obtain ⟨m, L, h1, _⟩ := h.inv.map
  exact ⟨m, h1⟩

/-- The claim of thread `i` and the others. -/
theorem SInv.at {s : Sys} (h : SInv s) {i : Nat} {pc : Pc} (hi : s.ths[i]? = some pc) :
    Inv s.st ((claimOf pc).toList ++ rest s i) := h.inv.perm (claims_at hi)

theorem resize {s : Sys} (h : SInv s) {n : Nat} (hn : n + 16 < 2 ^ 64) : resizeForCanary s.st n = n + 16 := by
  obtain ⟨m, hm⟩ := table_some h
  unfold resizeForCanary
  rw [hm]
  simp only [canarySize_eq]
  omega

theorem store_canary {st : St} {a : Nat} (h : canAccess st a 8 = true) :
    ∃ mem, store st a canary = .ok { st with mem := mem } ∧ (∀ x, x < a ∨ a + 8 ≤ x → mem x = st.mem x) ∧
      ∀ k < 8, mem (a + k) = tinybird.getD k 0 := by
  refine ⟨_, store_ok (.inr h), ?_, ?_⟩
  · intro x hx
    have : ¬ (a ≤ x ∧ x < a + canary.length) := by
      have : canary.length = 8 := rfl
      omega
    simp only [if_neg this]
  · intro k hk
    have : a ≤ a + k ∧ a + k < a + canary.length := by
      have : canary.length = 8 := rfl
      omega
    simp only [if_pos this, Nat.add_sub_cancel_left]
    rw [canary_eq]

/-- While somebody checks for leaks, whatever is in the table is complete. -/
theorem tab_full {s : Sys} (h : SInv s) (hl : ∃ pc ∈ s.ths, inLeaks pc = true) {c : Claim} (hc : c ∈ claims s)
    (ht : c.tab = true) : ∃ b fr, c = full b fr := by
  rcases List.mem_append.mp hc with hc | hc
  · obtain ⟨b, _, rfl⟩ := List.mem_map.mp hc
    exact ⟨b, false, rfl⟩
  · obtain ⟨pc, hp, e⟩ := List.mem_filterMap.mp hc
    have := h.quiet hl pc hp
    cases pc <;> simp [inMalloc, claimOf] at this e <;> subst e
    all_goals first
      | exact ⟨_, _, rfl⟩
      | (simp at ht)

/-- The walker moves: it goes on, or it stops and gives the mutex back. -/
theorem SInv.walked {s : Sys} (h : SInv s) {i : Nat} {pc pc' : Pc} {lock : Option Nat} (hi : s.ths[i]? = some pc)
    (hl : s.lock = none ∨ s.lock = some i) (w : inLeaks pc = true) (hc : claimOf pc = none) (hc' : claimOf pc' = none)
    (g : GoodPc pc') (hm : inMalloc pc' = false)
    (hw : (lock = some i ∧ ∃ todo t rep, pc' = .lWalk todo t rep ∧ Walk (claims s) todo t rep) ∨
      (lock = none ∧ isWalk pc' = false)) :
    SInv ⟨s.st, s.ths.set i pc', s.owned, lock⟩ := by
  have hlt : i < s.ths.length := (List.getElem?_eq_some_iff.mp hi).1
  have p1 := claims_at hi
  have p2 := claims_set hi pc' s.st lock
  rw [hc] at p1
  rw [hc'] at p2
  have hp := p1.trans p2.symm
  have only : ∀ j todo t rep, s.ths[j]? = some (.lWalk todo t rep) → j = i := by
    intro j todo t rep hj
    have := (h.walk j todo t rep hj).1
    rcases hl with e | e <;> rw [e] at this
    · cases this
    · exact (Option.some.inj this).symm
  refine ⟨h.inv.perm hp, ?_, ?_, ?_, ?_⟩
  · intro x hx
    rcases mem_set hx with rfl | hx
    · exact g
    · exact h.good x hx
  · intro j hj
    rcases hw with ⟨hw, todo, t, rep, rfl, _⟩ | ⟨hw, _⟩
    · rw [hw] at hj
      obtain rfl := Option.some.inj hj
      exact ⟨_, List.getElem?_set_self hlt, rfl⟩
    · rw [hw] at hj; cases hj
  · intro j todo t rep hj
    have hj : (s.ths.set i pc')[j]? = some (.lWalk todo t rep) := hj
    rw [List.getElem?_set] at hj
    by_cases e : i = j
    · subst e
      simp only [if_true, hlt] at hj
      obtain rfl := Option.some.inj hj
      rcases hw with ⟨hw, todo', t', rep', e, hk⟩ | ⟨_, hw⟩
      · obtain ⟨rfl, rfl, rfl⟩ := Pc.lWalk.inj e
        exact ⟨hw, hk.keep (Keep.perm hp)⟩
      · cases hw
    · rw [if_neg e] at hj
      exact absurd (only j todo t rep hj).symm e
  · intro _ y hy
    have hy1 : y = pc' ∨ y ∈ s.ths := mem_set hy
    rcases hy1 with e | hy
    · rw [e]; exact hm
    · exact h.quiet ⟨pc, List.mem_of_getElem? hi, w⟩ y hy

theorem total_snoc (l : List (Nat × Nat)) (x : Nat × Nat) : total (l ++ [x]) = total l + x.2 := by
  simp [total]

/-- One piece of a call: it neither aborts nor does anything undefined, and the invariant is kept. -/
theorem SInv.act {s : Sys} (h : SInv s) {i : Nat} {e : Env} {r : Res Sys} (hq : e.q ≠ 0 ∧ s.st.recs e.q = none)
    (he : ∀ m, table s.st = some m → Hashmap.entryOk e.entryOk m.size = true) (ha : act s i e = some r) :
    ∃ s', r = .ok s' ∧ SInv s' := by
  obtain ⟨m, hm⟩ := table_some h
  have hm' : table s.st = some m := hm
  cases hi : s.ths[i]? with
  | none => simp [AllocMt.act, hi] at ha
  | some pc =>
    have hat := h.at hi
    have hset := claims_set hi
    have hcl := claims_at hi
    have hmem := List.mem_of_getElem? hi
    have hgood := h.good pc hmem
    cases pc with
    | ret o => simp [AllocMt.act, hi] at ha
    | mRaw n =>
      have hn : n + 16 < 2 ^ 64 := hgood
      have hl := h.unlocked hi rfl
      simp only [AllocMt.act, hi, resize h hn, Option.some.injEq] at ha
      subst ha
      refine ⟨_, rfl, ?_⟩
      rcases rawMalloc_cases s.st (n + 16) e.r e.junk with h1 | ⟨hr0, hrn, hdis, h1⟩
      · rw [h1]
        simp only [if_true]
        exact h.move hi _ _ rfl rfl trivial (fun q => by cases q) (fun q => by cases q)
          (hat.perm (hset (.ret (.ptr 0)) s.st s.lock).symm) (fun q => absurd hl q)
      · rw [h1]
        simp only [if_neg hr0]
        exact h.move hi _ _ rfl rfl trivial (fun q => by cases q) (fun _ => .inl rfl)
          (Inv.perm (Inv.add hat hr0 hrn hdis) (hset (.mGet e.r n) _ s.lock).symm) (fun q => absurd hl q)
    | mGet r n =>
      have hl := h.unlocked hi rfl
      have hget := Inv.get_absent (c := ⟨r + 8, n, 0, none, false, false, false⟩) hat rfl hm
      simp only [AllocMt.act, hi, hl, Option.isSome_none, Bool.false_eq_true, if_false, hm', canarySize_eq] at ha
      simp only at hget
      rw [hget] at ha
      simp only [Res.ofOption, Res.bind, if_true, Option.some.injEq] at ha
      subst ha
      refine ⟨_, rfl, ?_⟩
      have := h.move hi (pc' := .mRec r n) s.st s.owned rfl rfl trivial (fun q => by cases q) (fun _ => .inl rfl)
          (hat.perm (hset (.mRec r n) s.st s.lock).symm) (fun q => absurd hl q)
      rwa [hl] at this
    | mRec r n =>
      have hl := h.unlocked hi rfl
      have : ¬ (e.q = 0 ∨ (s.st.recs e.q).isSome = true) := by
        rw [hq.2]; simpa using hq.1
      simp only [AllocMt.act, hi, if_neg this, Option.some.injEq] at ha
      subst ha
      refine ⟨_, rfl, ?_⟩
      exact h.move hi _ _ rfl rfl trivial (fun q => by cases q) (fun _ => .inl rfl)
        (Inv.perm (Inv.newRec (c := ⟨r + 8, n, 0, none, false, false, false⟩) hat rfl rfl hq.1 hq.2 ⟨0, 0, 0, false⟩)
          (hset (.mPut r n e.q) _ s.lock).symm) (fun q => absurd hl q)
    | mPut r n q =>
      have hl := h.unlocked hi rfl
      obtain ⟨m', hput, hinv⟩ := Inv.put (c := ⟨r + 8, n, q, some ⟨0, 0, 0, false⟩, false, false, false⟩) hat rfl rfl hm
        (ok1 := e.entryOk) (ok2 := e.growOk) (he m hm)
      simp only at hput
      simp only [AllocMt.act, hi, hl, Option.isSome_none, Bool.false_eq_true, if_false, hm', canarySize_eq] at ha
      rw [hput] at ha
      simp only [Res.ofOption, Res.bind, applyFrees, Option.some.injEq] at ha
      subst ha
      refine ⟨_, rfl, ?_⟩
      have := h.move hi (pc' := .mId r n q) { s.st with allocations := some m' } s.owned rfl rfl trivial
        (fun q => by cases q) (fun _ => .inl rfl) (hinv.perm (hset (.mId r n q) _ s.lock).symm) (fun q => absurd hl q)
      rwa [hl] at this
    | mId r n q =>
      have hl := h.unlocked hi rfl
      obtain ⟨st', e1, i1, _, _⟩ := Inv.setRec (c := ⟨r + 8, n, q, some ⟨0, 0, 0, false⟩, true, false, false⟩) hat rfl
        fun a => { a with allocatorId := Allocator.allocatorId }
      simp only [AllocMt.act, hi, e1, Res.bind, Option.some.injEq] at ha
      subst ha
      refine ⟨_, rfl, ?_⟩
      exact h.move hi _ _ rfl rfl trivial (fun q => by cases q) (fun _ => .inl rfl)
        (i1.perm (hset (.mFreed r n q) _ s.lock).symm) (fun q => absurd hl q)
    | mFreed r n q =>
      have hl := h.unlocked hi rfl
      obtain ⟨st', e1, i1, _, _⟩ := Inv.setRec (c := ⟨r + 8, n, q, some ⟨99, 0, 0, false⟩, true, false, false⟩) hat rfl
        fun a => { a with freed := false }
      simp only [AllocMt.act, hi, e1, Res.bind, Option.some.injEq] at ha
      subst ha
      refine ⟨_, rfl, ?_⟩
      exact h.move hi _ _ rfl rfl trivial (fun q => by cases q) (fun _ => .inl rfl)
        (i1.perm (hset (.mSize r n q) _ s.lock).symm) (fun q => absurd hl q)
    | mSize r n q =>
      have hl := h.unlocked hi rfl
      obtain ⟨st', e1, i1, _, _⟩ := Inv.setRec (c := ⟨r + 8, n, q, some ⟨99, 0, 0, false⟩, true, false, false⟩) hat rfl
        fun a => { a with size := n }
      simp only [AllocMt.act, hi, e1, Res.bind, Option.some.injEq] at ha
      subst ha
      refine ⟨_, rfl, ?_⟩
      exact h.move hi _ _ rfl rfl trivial (fun q => by cases q) (fun _ => .inl rfl)
        (i1.perm (hset (.mPtr r n q) _ s.lock).symm) (fun q => absurd hl q)
    | mPtr r n q =>
      have hl := h.unlocked hi rfl
      obtain ⟨st', e1, i1, _, _⟩ := Inv.setRec (c := ⟨r + 8, n, q, some ⟨99, 0, n, false⟩, true, false, false⟩) hat rfl
        fun a => { a with ptr := r + canarySize }
      simp only [AllocMt.act, hi, e1, Res.bind, Option.some.injEq] at ha
      subst ha
      refine ⟨_, rfl, ?_⟩
      exact h.move hi _ _ rfl rfl trivial (fun q => by cases q) (fun _ => .inl rfl)
        (i1.perm (hset (.mFront r n q) _ s.lock).symm) (fun q => absurd hl q)
    | mFront r n q =>
      have hl := h.unlocked hi rfl
      have hacc := Inv.access (a := r) (n := 8) hat (by simp only; omega) (by simp only; omega)
      obtain ⟨mem, e1, e2, e3⟩ := store_canary hacc
      simp only [AllocMt.act, hi, e1, Res.bind, Option.some.injEq] at ha
      subst ha
      refine ⟨_, rfl, ?_⟩
      have i1 := Inv.setMem hat mem true false (by simp only; intro a ha; exact e2 a (by omega))
        (by intro _ k hk; simp only [Nat.add_sub_cancel]; exact e3 k hk) (by intro q; cases q)
      exact h.move hi _ _ rfl rfl trivial (fun q => by cases q) (fun _ => .inl rfl)
        (i1.perm (hset (.mBack r n q) _ s.lock).symm) (fun q => absurd hl q)
    | mBack r n q =>
      have hl := h.unlocked hi rfl
      have hacc := Inv.access (a := r + 8 + n) (n := 8) hat (by simp only; omega) (by simp only; omega)
      obtain ⟨mem, e1, e2, e3⟩ := store_canary hacc
      simp only [AllocMt.act, hi, canarySize_eq, e1, Res.bind, Option.some.injEq] at ha
      subst ha
      refine ⟨_, rfl, ?_⟩
      have i1 := Inv.setMem hat mem true true (by simp only; intro a ha; exact e2 a (by omega))
        (by
          intro _ k hk
          simp only [Nat.add_sub_cancel]
          rw [e2 _ (by omega)]
          have := hat.front _ (List.mem_cons_self ..) rfl k hk
          simpa using this) (by intro _ k hk; exact e3 k hk)
      exact h.move hi _ _ rfl rfl trivial (fun q => by cases q) (fun q => by cases q)
        (i1.perm (claims_owned hi _ _ ⟨r + 8, n, q⟩ rfl).symm) (fun q => absurd hl q)
    | fGet b =>
      simp only [AllocMt.act, hi] at ha
      cases hl : s.lock with
      | some j => simp [hl] at ha
      | none =>
        have hget := Inv.get_present (c := full b false) hat rfl hm
        have hq0 := (hat.recs (full b false) (List.mem_cons_self ..) _ rfl).1
        simp only [full] at hget hq0
        simp only [hl, Option.isSome_none, Bool.false_eq_true, if_false, hm'] at ha
        rw [hget] at ha
        simp only [Res.ofOption, Res.bind, if_neg hq0, Option.some.injEq] at ha
        subst ha
        refine ⟨_, rfl, ?_⟩
        have := h.move hi (pc' := .fChk b b.q) s.st s.owned rfl rfl rfl (fun q => by cases q) (fun q => by cases q)
          (hat.perm (hset (.fChk b b.q) _ s.lock).symm) (fun q => absurd hl q)
        rwa [hl] at this
    | fChk b g =>
      have hg : g = b.q := hgood
      have hrec := (hat.recs (full b false) (List.mem_cons_self ..) _ rfl).2
      simp only [full] at hrec
      simp only [AllocMt.act, hi, hg, hrec, Allocator.allocatorId, ne_eq, not_true_eq_false, or_self, Bool.false_eq_true,
        if_false, Option.some.injEq] at ha
      subst ha
      refine ⟨_, rfl, ?_⟩
      exact h.move hi _ _ rfl rfl rfl (fun q => by cases q) (fun q => by cases q)
        (hat.perm (hset (.fMark b b.q) _ s.lock).symm) (fun _ => Keep.perm (hcl.trans (hset (.fMark b b.q) _ s.lock).symm))
    | fMark b g =>
      have hg : g = b.q := hgood
      obtain ⟨st', e1, i1, _, _⟩ := Inv.setRec (c := full b false) hat rfl fun a => { a with freed := true }
      simp only [full] at e1
      simp only [AllocMt.act, hi, hg, e1, Res.bind, Option.some.injEq] at ha
      subst ha
      refine ⟨_, rfl, ?_⟩
      exact h.move hi _ _ rfl rfl rfl (fun q => by cases q) (fun q => by cases q)
        (i1.perm (hset (.fCan b b.q) _ s.lock).symm)
        (fun _ => ((Keep.perm hcl).trans (Keep.mark b _)).trans (Keep.perm (hset (.fCan b b.q) _ s.lock).symm))
    | fCan b g =>
      have hg : g = b.q := hgood
      have hrec := (hat.recs (full b true) (List.mem_cons_self ..) _ rfl).2
      have hchk := Inv.check (b := b) (fr := true) hat (List.mem_cons_self ..)
      simp only [full] at hrec
      simp only [AllocMt.act, hi, hg, hrec, hchk, Res.bind, Option.some.injEq] at ha
      subst ha
      refine ⟨_, rfl, ?_⟩
      exact h.move hi _ _ rfl rfl trivial (fun q => by cases q) (fun q => by cases q)
        (hat.perm (hset (.fRem b) _ s.lock).symm) (fun _ => Keep.perm (hcl.trans (hset (.fRem b) _ s.lock).symm))
    | fRem b =>
      simp only [AllocMt.act, hi] at ha
      cases hl : s.lock with
      | some j => simp [hl] at ha
      | none =>
        obtain ⟨m', evs, recs, e1, e2, i1⟩ := Inv.remove (c := full b true) hat rfl hm
        simp only [full] at e1
        simp only [hl, Option.isSome_none, Bool.false_eq_true, if_false, hm'] at ha
        rw [e1] at ha
        simp only [Res.ofOption, Res.bind, e2, Option.some.injEq] at ha
        subst ha
        refine ⟨_, rfl, ?_⟩
        have := h.move hi (pc' := .fRaw b) { s.st with allocations := some m', recs := recs } s.owned rfl rfl trivial
          (fun q => by cases q) (fun q => by cases q) (i1.perm (hset (.fRaw b) _ s.lock).symm) (fun q => absurd hl q)
        rwa [hl] at this
    | fRaw b =>
      obtain ⟨st', e1, i1, _, _⟩ := Inv.drop (c := ⟨b.p, b.n, 0, none, false, false, false⟩) hat rfl rfl
      simp only [AllocMt.act, hi, canarySize_eq, e1, Res.bind, Option.some.injEq] at ha
      subst ha
      refine ⟨_, rfl, ?_⟩
      exact h.move hi _ _ rfl rfl trivial (fun q => by cases q) (fun q => by cases q)
        (i1.perm (hset (.ret .unit) _ s.lock).symm)
        (fun _ => ((Keep.perm hcl).trans (Keep.drop rfl)).trans (Keep.perm (hset (.ret .unit) _ s.lock).symm))
    | sGet b =>
      simp only [AllocMt.act, hi] at ha
      cases hl : s.lock with
      | some j => simp [hl] at ha
      | none =>
        have hget := Inv.get_present (c := full b false) hat rfl hm
        have hq0 := (hat.recs (full b false) (List.mem_cons_self ..) _ rfl).1
        simp only [full] at hget hq0
        simp only [hl, Option.isSome_none, Bool.false_eq_true, if_false, hm'] at ha
        rw [hget] at ha
        simp only [Res.ofOption, Res.bind, if_neg hq0, Option.some.injEq] at ha
        subst ha
        refine ⟨_, rfl, ?_⟩
        have := h.move hi (pc' := .sRead b b.q) s.st s.owned rfl rfl rfl (fun q => by cases q) (fun q => by cases q)
          (hat.perm (hset (.sRead b b.q) _ s.lock).symm) (fun q => absurd hl q)
        rwa [hl] at this
    | sRead b g =>
      have hg : g = b.q := hgood
      have hrec := (hat.recs (full b false) (List.mem_cons_self ..) _ rfl).2
      simp only [full] at hrec
      simp only [AllocMt.act, hi, hg, hrec, Allocator.allocatorId, ne_eq, not_true_eq_false,
        if_false, Option.some.injEq] at ha
      subst ha
      refine ⟨_, rfl, ?_⟩
      have hp := claims_owned hi (.ret (.size b.n)) s.st b rfl
      exact h.move hi _ _ rfl rfl trivial (fun q => by cases q) (fun q => by cases q)
        (hat.perm hp.symm) (fun _ => Keep.perm (hcl.trans hp.symm))
    | lGo =>
      simp only [AllocMt.act, hi] at ha
      cases hl : s.lock with
      | some j => simp [hl] at ha
      | none =>
        simp only [hl, Option.isSome_none, Bool.false_eq_true, if_false, hm', Option.some.injEq] at ha
        subst ha
        refine ⟨_, rfl, ?_⟩
        obtain ⟨m1, L, h1, h2, h3⟩ := h.inv.map
        rw [hm] at h1
        obtain rfl := Option.some.inj h1
        have hperm := h2.perm.trans h3
        refine h.walked hi (.inl hl) rfl rfl rfl trivial rfl (.inl ⟨rfl, _, _, _, rfl, ?_, ?_, ?_, ?_, ?_⟩)
        · intro x hx
          obtain ⟨c, hc, e⟩ := List.mem_map.mp (hperm.mem_iff.mp hx)
          exact ⟨c, (List.mem_filter.mp hc).1, (List.mem_filter.mp hc).2, e⟩
        · intro x hx; cases hx
        · intro c hc ht _
          exact .inr (hperm.mem_iff.mpr (List.mem_map.mpr ⟨c, List.mem_filter.mpr ⟨hc, ht⟩, rfl⟩))
        · have := (h2.perm.symm.pairwise_iff (R := fun a b : Nat × Nat => a.1 ≠ b.1) (fun {a b} e => e.symm)).mp
            (keys_distinct h2)
          simp only [List.map_nil, List.nil_append]
          exact List.pairwise_map.mpr this
        · rfl
    | lWalk todo t rep =>
      obtain ⟨hlk, hw⟩ := h.walk i todo t rep hi
      cases todo with
      | nil =>
        simp only [AllocMt.act, hi, Option.some.injEq] at ha
        subst ha
        exact ⟨_, rfl, h.walked hi (.inr hlk) rfl rfl rfl trivial rfl (.inr ⟨rfl, rfl⟩)⟩
      | cons x todo =>
        obtain ⟨c, hc, ht, hx⟩ := hw.visit x (List.mem_cons_self ..)
        obtain ⟨b, fr, rfl⟩ := tab_full h ⟨_, hmem, rfl⟩ hc ht
        have hrec := (h.inv.recs _ hc _ rfl).2
        have hchk := h.inv.check hc
        have hsame : ∀ c' ∈ claims s, c'.rc = some ⟨99, c'.p, c'.n, false⟩ → ent c' = x →
            fr = false ∧ c'.p = b.p ∧ c'.n = b.n := by
          intro c' hc' hr' e
          have h1 := (h.inv.recs c' hc' _ hr').2
          rw [← hx] at e
          simp only [ent, full, Prod.mk.injEq] at e
          rw [e.2] at h1
          simp only [full] at hrec
          rw [hrec] at h1
          simp only [Option.some.injEq, Rec.mk.injEq] at h1
          exact ⟨h1.2.2.2, h1.2.1.symm, h1.2.2.1.symm⟩
        obtain ⟨xp, xq⟩ := x
        simp only [ent, full, Prod.mk.injEq] at hx
        obtain ⟨rfl, rfl⟩ := hx
        simp only [full] at hrec
        have hnd := hw.nodup
        cases fr with
        | true =>
          simp only [AllocMt.act, hi, visitEntry, hrec, if_true, Res.bind, Option.some.injEq] at ha
          subst ha
          refine ⟨_, rfl, ?_⟩
          have := h.walked hi (pc' := .lWalk todo t rep) (lock := s.lock) (.inr hlk) rfl rfl rfl trivial rfl
            (.inl ⟨hlk, _, _, _, rfl, fun x hx => hw.visit x (List.mem_cons_of_mem _ hx), hw.sound, ?_, ?_, hw.sum⟩)
          · exact this
          · intro c' hc' ht' hr'
            rcases hw.all c' hc' ht' hr' with q | q
            · exact .inl q
            · rcases List.mem_cons.mp q with q | q
              · exact absurd (hsame c' hc' hr' q).1 (by simp)
              · exact .inr q
          · simp only [List.map_cons, List.nodup_append, List.nodup_cons, List.mem_cons] at hnd ⊢
            exact ⟨hnd.1, hnd.2.1.2, fun a ha b hb => hnd.2.2 a ha b (.inr hb)⟩
        | false =>
          simp only [AllocMt.act, hi, visitEntry, hrec, Bool.false_eq_true, if_false, hchk, Res.bind, Option.some.injEq] at ha
          subst ha
          refine ⟨_, rfl, ?_⟩
          have := h.walked hi (pc' := .lWalk todo ((t + b.n) % 2 ^ 64) (rep ++ [(b.p, b.n)])) (lock := s.lock) (.inr hlk)
            rfl rfl rfl trivial rfl
            (.inl ⟨hlk, _, _, _, rfl, fun x hx => hw.visit x (List.mem_cons_of_mem _ hx), ?_, ?_, ?_, ?_⟩)
          · exact this
          · intro x hx
            rcases List.mem_append.mp hx with hx | hx
            · exact hw.sound x hx
            · obtain rfl := List.mem_singleton.mp hx
              exact ⟨_, hc, rfl, rfl⟩
          · intro c' hc' ht' hr'
            rcases hw.all c' hc' ht' hr' with q | q
            · exact .inl (List.mem_append_left _ q)
            · rcases List.mem_cons.mp q with q | q
              · obtain ⟨_, e1, e2⟩ := hsame c' hc' hr' q
                exact .inl (List.mem_append_right _ (by rw [e1, e2]; exact List.mem_singleton.mpr rfl))
              · exact .inr q
          · simp only [List.map_append, List.map_cons, List.map_nil, List.append_assoc, List.singleton_append] at hnd ⊢
            exact hnd
          · rw [total_snoc, hw.sum]
            omega

end Verif.AllocMt
