import Verif.Dirent.Scan
import Verif.Dirent.Use

/-! # C82: proofs about `scandir` -/
namespace Verif.Dirent
open Spec (W FindData Ent Locale FullRes FindRes OpenAns Event Ret Pos Stream Abs)

/-- The entries the caller wants. -/
def wanted (filter : Option (Ent Byte → Bool)) (l : List (Ent Byte)) : List (Ent Byte) :=
  match filter with
  | none => l
  | some f => l.filter f

theorem wanted_cons_no {filter : Option (Ent Byte → Bool)} {e : Ent Byte} {l : List (Ent Byte)} (h : filter.any (fun f => !f e) = true) : wanted filter (e :: l) = wanted filter l := by
  cases filter with
  | none => simp at h
  | some f => simp at h; simp [wanted, h]

theorem wanted_cons_yes {filter : Option (Ent Byte → Bool)} {e : Ent Byte} {l : List (Ent Byte)} (h : filter.any (fun f => !f e) = false) : wanted filter (e :: l) = e :: wanted filter l := by
  cases filter with
  | none => rfl
  | some f => simp at h; simp [wanted, h]

/-- Why the loop may fail: memory for the entry after `i` wanted ones, or for the table with `i` of them. -/
def NoMem (a : ScanAns) (m n : Nat) : Prop := ∃ i, m ≤ i ∧ (i ≤ n ∧ a.entOk i = false ∨ i < n ∧ a.tabOk i = false)

theorem scanLoop_spec (loc : Locale) (filter : Option (Ent Byte → Bool)) (a : ScanAns) {s0 : Sys} {dir w q : Nat} {h : Option Nat} {patt : List W} :
    ∀ (l : List FindData) (fuel : Nat) (s : Sys) (d : WDir) (tmp files : Option Nat) (alloc : Nat) (kept : List (Nat × Ent Byte)), l.length < fuel →
      J s0 s dir w q h patt l d tmp files alloc kept →
      ∃ ok s' l' d' tmp' files' alloc' kept', scanLoop loc filter a dir fuel s tmp files kept.length alloc = some (⟨ok, tmp', files', kept'.length⟩, s') ∧
        J s0 s' dir w q h patt l' d' tmp' files' alloc' kept' ∧
        (ok = true → kept'.map (·.2) = kept.map (·.2) ++ wanted filter (entries loc l)) ∧
        (ok = false → NoMem a kept.length (kept.length + (wanted filter (entries loc l)).length))
  | _, 0, _, _, _, _, _, _, hf, _ => by omega
  | l, fuel + 1, s, d, tmp, files, alloc, kept, hf, j => by
    unfold scanLoop
    -- the temporary block
    by_cases hm : tmp = none ∧ a.entOk kept.length = false
    · obtain ⟨rfl, hm⟩ := hm
      simp only [if_true, malloc, hm, Bool.false_eq_true, if_false]
      exact ⟨false, s, l, d, none, files, alloc, kept, rfl, j, (fun h => by cases h), fun _ => ⟨kept.length, Nat.le_refl _, .inl ⟨Nat.le_add_right _ _, hm⟩⟩⟩
    · obtain ⟨t, s1, e1, j1⟩ : ∃ t s1, (if tmp = none then malloc s (a.entOk kept.length) else (tmp, s)) = (some t, s1) ∧
          J s0 s1 dir w q h patt l d (some t) files alloc kept := by
        cases tmp with
        | some t => exact ⟨t, s, by simp, j⟩
        | none =>
          have : a.entOk kept.length = true := by
            cases e : a.entOk kept.length with
            | true => rfl
            | false => exact absurd ⟨rfl, e⟩ hm
          exact ⟨s.next, _, by simp [malloc, this], j.alloc⟩
      simp only [e1]
      obtain ⟨s2, d2, r1, r2, r3, r4⟩ := readdir_spec loc j1.dirAt j1.rep
      simp only [r1, Option.bind_eq_bind, Option.bind_some, ne_eq, not_true, if_false]
      cases l with
      | nil =>
        simp only [Spec.Pos.head, Option.pure_def]
        exact ⟨true, s2, [], d2, some t, files, alloc, kept, rfl, j1.upd r3 r2, (fun _ => by simp [entries]; cases filter <;> rfl), (fun h => by cases h)⟩
      | cons x l =>
        simp only [Spec.Pos.head]
        simp only [Spec.Pos.tail] at r2
        have j2 := j1.upd r3 r2
        have j3 := j2.entry (Spec.byteEntry loc x l)
        obtain ⟨o, ho⟩ : ∃ o, s2.heap t = some o := by
          rcases (j2.tmpAt t rfl).1 with k | ⟨_, k⟩ <;> exact ⟨_, k⟩
        simp only [ho, Option.bind_some]
        have hl : l.length < fuel := by simpa using hf
        cases hfi : filter.any (fun f => !f (Spec.byteEntry loc x l)) with
        | true =>
          simp only [if_true]
          obtain ⟨ok, s', l', d', tmp', files', alloc', kept', i1, i2, i3, i4⟩ := scanLoop_spec loc filter a l fuel _ d2 (some t) files alloc kept hl j3
          refine ⟨ok, s', l', d', tmp', files', alloc', kept', i1, i2, ?_, ?_⟩
          · intro h; rw [i3 h]; simp only [entries, wanted_cons_no hfi]
          · intro h; simp only [entries, wanted_cons_no hfi]; exact i4 h
        | false =>
          simp only [Bool.false_eq_true, if_false]
          have het : (s2.put t (some (.ent (Spec.byteEntry loc x l)))).heap t = some (.ent (Spec.byteEntry loc x l)) := by simp [Sys.put]
          have fin : ∀ (s3 : Sys) (p cap : Nat), J s0 s3 dir w q h patt l d2 (some t) (some p) cap kept → s3.heap t = some (.ent (Spec.byteEntry loc x l)) → kept.length < cap →
              ∃ ok s' l' d' tmp' files' alloc' kept', ((storePtr s3 (some p) kept.length t).bind fun s => scanLoop loc filter a dir fuel s none (some p) (kept.length + 1) cap) =
                some (⟨ok, tmp', files', kept'.length⟩, s') ∧ J s0 s' dir w q h patt l' d' tmp' files' alloc' kept' ∧
                (ok = true → kept'.map (·.2) = kept.map (·.2) ++ wanted filter (entries loc (x :: l))) ∧
                (ok = false → NoMem a kept.length (kept.length + (wanted filter (entries loc (x :: l))).length)) := by
            intro s3 p cap j4 h4 hc
            obtain ⟨s4, e4, j5⟩ := j4.store h4 hc
            obtain ⟨ok, s', l', d', tmp', files', alloc', kept', i1, i2, i3, i4⟩ := scanLoop_spec loc filter a l fuel s4 d2 none (some p) cap _ hl j5
            rw [e4, Option.bind_some]
            rw [List.length_append, List.length_singleton] at i1 i4
            refine ⟨ok, s', l', d', tmp', files', alloc', kept', i1, i2, ?_, ?_⟩
            · intro h; rw [i3 h]; simp [entries, wanted_cons_yes hfi]
            · intro h
              obtain ⟨i, k1, k2⟩ := i4 h
              simp only [entries, wanted_cons_yes hfi, List.length_cons]
              exact ⟨i, by omega, by
                rcases k2 with ⟨k2, k3⟩ | ⟨k2, k3⟩
                · exact .inl ⟨by omega, k3⟩
                · exact .inr ⟨by omega, k3⟩⟩
          by_cases hcap : kept.length ≥ alloc
          · simp only [hcap, if_true]
            cases htab : a.tabOk kept.length with
            | false =>
              simp only [reallocPtrs, Bool.false_eq_true, if_false, Option.bind_some, Option.pure_def]
              refine ⟨false, _, l, d2, some t, files, alloc, kept, rfl, j3, (fun h => by cases h), fun _ => ?_⟩
              exact ⟨kept.length, Nat.le_refl _, .inr ⟨by simp [entries, wanted_cons_yes hfi], htab⟩⟩
            | true =>
              obtain ⟨s3, g1, g2, g3⟩ := j3.grow (n := kept.length * 2 + 16) (by omega)
              simp only [g1, Option.bind_some]
              exact fin s3 _ _ g2 (g3 t _ het) (by omega)
          · simp only [hcap, if_false]
            cases files with
            | none =>
              rcases j3.tab with ⟨_, k2, k3⟩ | ⟨f, f1, _⟩
              · subst k2; subst k3; simp at hcap
              · cases f1
            | some f => exact fin _ f alloc j3 het (by omega)

theorem freeAll_spec : ∀ (l : List Nat) (s : Sys), l.Nodup → (∀ x ∈ l, s.heap x ≠ none) →
    ∃ s', freeAll s l = some s' ∧ (∀ x, s'.heap x = if x ∈ l then none else s.heap x) ∧ s'.handles = s.handles ∧ s'.next = s.next ∧ s'.errno = s.errno
  | [], s, _, _ => ⟨s, rfl, by simp, rfl, rfl, rfl⟩
  | y :: l, s, hn, hl => by
    obtain ⟨o, ho⟩ := Option.ne_none_iff_exists'.1 (hl y (List.mem_cons_self ..))
    have hn' := List.nodup_cons.1 hn
    obtain ⟨s', i1, i2, i3, i4, i5⟩ := freeAll_spec l (s.put y none) hn'.2 (by
      intro x hx
      have : x ≠ y := by rintro rfl; exact hn'.1 hx
      simpa [Sys.put, this] using hl x (List.mem_cons_of_mem _ hx))
    refine ⟨s', ?_, ?_, i3, i4, i5⟩
    · unfold freeAll
      rw [free_some ho]
      exact i1
    · intro x
      rw [i2 x]
      by_cases e : x = y
      · simp [e, Sys.put]
      · simp [e, Sys.put]

theorem mapM_getEnt {s : Sys} : ∀ (kept : List (Nat × Ent Byte)), (∀ p ∈ kept, s.heap p.1 = some (.ent p.2)) → (kept.map (·.1)).mapM (getEnt s) = some kept
  | [], _ => rfl
  | p :: l, h => by
    have h1 := h p (List.mem_cons_self ..)
    have := mapM_getEnt l (fun q hq => h q (List.mem_cons_of_mem _ hq))
    simp [List.mapM_cons, getEnt, h1] at this ⊢
    rw [this]
    rfl

/-- All of the table and its entries freed. -/
theorem J.drop {s0 s : Sys} {dir w q : Nat} {h : Option Nat} {patt : List W} {l : List FindData} {d : WDir} {tmp files : Option Nat} {alloc : Nat}
    {kept : List (Nat × Ent Byte)} (j : J s0 s dir w q h patt l d tmp files alloc kept) :
    tablePtrs s files = some (kept.map (·.1)) ∧ ∃ s1 s2, freeAll s (kept.map (·.1)) = some s1 ∧ free s1 files = some s2 ∧ J s0 s2 dir w q h patt l d tmp none 0 [] ∧
      s2.errno = s.errno := by
  refine ⟨?_, ?_⟩
  · rcases j.tab with ⟨k1, k2, _⟩ | ⟨f, f1, f2⟩
    · subst k1; subst k2; rfl
    · subst f1; simp [tablePtrs, f2]
  have kd : ∀ x ∈ kept.map (·.1), ∃ e, s.heap x = some (.ent e) := by
    intro x hx
    obtain ⟨p, hp, rfl⟩ := List.mem_map.1 hx
    exact ⟨_, j.ents p hp⟩
  obtain ⟨s1, a1, a2, a3, a4, a5⟩ := freeAll_spec (kept.map (·.1)) s j.nodup (by intro x hx; obtain ⟨e, k⟩ := kd x hx; simp [k])
  have key : ∀ s2, (∀ x, s2.heap x = if x ∈ kept.map (·.1) ∨ files = some x then none else s.heap x) → s2.handles = s.handles → s2.next = s.next →
      J s0 s2 dir w q h patt l d tmp none 0 [] := by
    intro s2 h1 h2 h3
    have old : ∀ {x : Nat} {o : Obj}, s.heap x = some o → (∀ c l, o ≠ .ptrs c l) → x ∉ kept.map (·.1) → s2.heap x = some o := by
      intro x o k1 k2 k3
      have : ¬ (x ∈ kept.map (·.1) ∨ files = some x) := by
        rintro (k | k)
        · exact k3 k
        · rcases j.tab with ⟨f1, _⟩ | ⟨f, f1, f2⟩
          · rw [f1] at k; cases k
          · rw [f1] at k; cases k; rw [f2] at k1; cases k1; exact k2 _ _ rfl
      rw [h1 x, if_neg this]; exact k1
    have nk : ∀ {x : Nat} {o : Obj}, s.heap x = some o → (∀ e, o ≠ .ent e) → x ∉ kept.map (·.1) := by
      intro x o k1 k2 k3
      obtain ⟨e, k⟩ := kd x k3
      rw [k1] at k; cases k; exact k2 _ rfl
    obtain ⟨b, hb, hc⟩ := j.rep.buf
    refine ⟨old j.dirAt (by simp) (nk j.dirAt (by simp)), ⟨old j.rep.atw (by simp) (nk j.rep.atw (by simp)), j.rep.pat, ⟨b, old hb (by simp) (nk hb (by simp)), hc⟩, j.rep.hnd, by rw [h2]; exact j.rep.pos⟩,
      ?_, .inl ⟨rfl, rfl, rfl⟩, (by intro p hp; cases hp), List.nodup_nil, Nat.le_refl _, ?_, ?_, by rw [h3]; exact j.ge, ?_, j.hfresh, by rw [h2]; exact j.hnd, j.base⟩
    · intro t ht
      obtain ⟨k1, k2⟩ := j.tmpAt t ht
      refine ⟨?_, by simp⟩
      rcases k1 with k | ⟨e, k⟩
      · exact .inl (old k (by simp) k2)
      · exact .inr ⟨e, old k (by simp) k2⟩
    · rintro x (k | k | k | k | k | k)
      · exact j.fresh x (.inl k)
      · exact j.fresh x (.inr (.inl k))
      · exact j.fresh x (.inr (.inr (.inl k)))
      · exact j.fresh x (.inr (.inr (.inr (.inl k))))
      · cases k
      · cases k
    · intro x hx
      rw [h3]
      refine j.lt x fun e => hx ?_
      rw [h1 x]; split
      · rfl
      · exact e
    · intro x hx
      rw [h1 x]
      by_cases k : x ∈ kept.map (·.1) ∨ files = some x
      · rw [if_pos k]
        rcases k with k | k
        · exact (j.fresh x (.inr (.inr (.inr (.inr (.inr k)))))).symm
        · exact (j.fresh x (.inr (.inr (.inr (.inr (.inl k)))))).symm
      · rw [if_neg k]
        refine j.other x ?_
        rintro (k' | k' | k' | k' | k' | k')
        · exact hx (.inl k')
        · exact hx (.inr (.inl k'))
        · exact hx (.inr (.inr (.inl k')))
        · exact hx (.inr (.inr (.inr (.inl k'))))
        · exact k (.inr k')
        · exact k (.inl k')
  cases hfi : files with
  | none =>
    refine ⟨s1, s1, a1, rfl, key s1 ?_ a3 a4, a5⟩
    intro x; rw [a2 x]
    by_cases k : x ∈ kept.map (·.1)
    · rw [if_pos k, if_pos (.inl k)]
    · rw [if_neg k, if_neg]; rintro (k' | k')
      · exact k k'
      · rw [hfi] at k'; cases k'
  | some f =>
    have hf : s.heap f = some (.ptrs alloc (kept.map (·.1))) := by
      rcases j.tab with ⟨k, _⟩ | ⟨x, k1, k2⟩
      · rw [hfi] at k; cases k
      · rw [hfi] at k1; cases k1; exact k2
    have hfk : f ∉ kept.map (·.1) := by
      intro k; obtain ⟨e, k⟩ := kd f k; rw [hf] at k; cases k
    have h1 : s1.heap f = some (.ptrs alloc (kept.map (·.1))) := by rw [a2 f, if_neg hfk]; exact hf
    refine ⟨s1, s1.put f none, a1, free_some h1, key _ ?_ a3 a4, a5⟩
    intro x
    by_cases e : x = f
    · subst e; simp [Sys.put, hfi]
    · have e' : ¬ some f = some x := fun k => e (Option.some.inj k).symm
      have : (s1.put f none).heap x = s1.heap x := by simp [Sys.put, e]
      rw [this, a2 x]
      by_cases k : x ∈ kept.map (·.1)
      · rw [if_pos k, if_pos (.inl k)]
      · rw [if_neg k, if_neg]; rintro (k' | k')
        · exact k k'
        · rw [hfi] at k'; exact e' k'

/-- The table sorted. -/
theorem J.sort {s0 s : Sys} {dir w q : Nat} {h : Option Nat} {patt : List W} {l : List FindData} {d : WDir} {tmp files : Option Nat} {alloc : Nat}
    {kept : List (Nat × Ent Byte)} (j : J s0 s dir w q h patt l d tmp files alloc kept) (cmp : Cmp) {qs : List (Nat × Ent Byte) → List (Nat × Ent Byte)} (hq : (qs kept).Perm kept) :
    ∃ s', sortTable s files kept.length (some cmp) qs = some s' ∧ J s0 s' dir w q h patt l d tmp files alloc (qs kept) ∧ s'.errno = s.errno := by
  have hq1 : ((qs kept).map (·.1)).Perm (kept.map (·.1)) := hq.map _
  cases files with
  | none =>
    have k : kept = [] := by
      rcases j.tab with ⟨_, k, _⟩ | ⟨f, f1, _⟩
      · exact k
      · cases f1
    subst k
    have k2 : qs [] = [] := hq.eq_nil
    refine ⟨s, by simp [sortTable], ?_, rfl⟩
    rw [k2]; exact j
  | some f =>
    have hf : s.heap f = some (.ptrs alloc (kept.map (·.1))) := by
      rcases j.tab with ⟨k, _⟩ | ⟨x, k1, k2⟩
      · cases k
      · cases k1; exact k2
    refine ⟨s.put f (some (.ptrs alloc ((qs kept).map (·.1)))), ?_, ?_, rfl⟩
    · have := mapM_getEnt kept j.ents
      simp [sortTable, hf, this]
    have old : ∀ {x : Nat} {o : Obj}, s.heap x = some o → (∀ c l, o ≠ .ptrs c l) → (s.put f (some (.ptrs alloc ((qs kept).map (·.1))))).heap x = some o := by
      intro x o h1 h2
      have : x ≠ f := by rintro rfl; rw [hf] at h1; cases h1; exact h2 _ _ rfl
      simp [Sys.put, this, h1]
    have hmine : ∀ x, mine dir w q tmp (some f) (qs kept) x ↔ mine dir w q tmp (some f) kept x := by
      intro x; unfold mine; rw [hq1.mem_iff]
    obtain ⟨b, hb, hc'⟩ := j.rep.buf
    refine ⟨old j.dirAt (by simp), ⟨old j.rep.atw (by simp), j.rep.pat, ⟨b, old hb (by simp), hc'⟩, j.rep.hnd, j.rep.pos⟩, ?_, .inr ⟨f, rfl, by simp [Sys.put]⟩, ?_, ?_, ?_, ?_, ?_, j.ge, ?_, j.hfresh, j.hnd, j.base⟩
    · intro t ht
      obtain ⟨k1, k2⟩ := j.tmpAt t ht
      refine ⟨?_, fun k => k2 (hq1.mem_iff.1 k)⟩
      rcases k1 with k | ⟨e, k⟩
      · exact .inl (old k (by simp))
      · exact .inr ⟨e, old k (by simp)⟩
    · intro p hp; exact old (j.ents p (hq.mem_iff.1 hp)) (by simp)
    · exact hq1.nodup_iff.2 j.nodup
    · rw [hq.length_eq]; exact j.cap
    · intro x hx; exact j.fresh x ((hmine x).1 hx)
    · intro x hx
      by_cases k : x = f
      · subst k; exact j.lt x (by simp [hf])
      · exact j.lt x (by simpa [Sys.put, k] using hx)
    · intro x hx
      have e1 : x ≠ f := fun e => hx (.inr (.inr (.inr (.inr (.inl (by rw [e]))))))
      have e2 : (s.put f (some (.ptrs alloc ((qs kept).map (·.1))))).heap x = s.heap x := by simp [Sys.put, e1]
      rw [e2]
      exact j.other x fun k => hx ((hmine x).2 k)

/-- 1057-1062: the rest released. -/
theorem J.finish {s0 s : Sys} {dir w q : Nat} {h : Option Nat} {patt : List W} {l : List FindData} {d : WDir} {tmp files : Option Nat} {alloc : Nat}
    {kept : List (Nat × Ent Byte)} (j : J s0 s dir w q h patt l d tmp files alloc kept) :
    ∃ s1 s2, free s tmp = some s1 ∧ closedir s1 (some dir) = some (0, s2) ∧ Result s0 s2 files (kept.map (·.2)) ∧ (∀ y, s2.handles y = s0.handles y) ∧ s0.next ≤ s2.next ∧
      s2.errno = s.errno := by
  obtain ⟨b, hb, hc⟩ := j.rep.buf
  have htmp : ∃ s1, free s tmp = some s1 ∧ (∀ x, s1.heap x = if tmp = some x then none else s.heap x) ∧ s1.handles = s.handles ∧ s1.next = s.next ∧ s1.errno = s.errno := by
    cases ht : tmp with
    | none => exact ⟨s, rfl, by simp, rfl, rfl, rfl⟩
    | some t =>
      obtain ⟨o, ho⟩ : ∃ o, s.heap t = some o := by
        rcases (j.tmpAt t ht).1 with k | ⟨_, k⟩ <;> exact ⟨_, k⟩
      refine ⟨s.put t none, free_some ho, ?_, rfl, rfl, rfl⟩
      intro x
      by_cases e : x = t
      · simp [Sys.put, e]
      · have e' : ¬ some t = some x := fun k => e (Option.some.inj k).symm
        simp [Sys.put, e, e']
  obtain ⟨s1, t1, t2, t3, t4, t5⟩ := htmp
  have old : ∀ {x : Nat} {o : Obj}, s.heap x = some o → (o ≠ .raw ∧ ∀ e, o ≠ .ent e) → s1.heap x = some o := by
    intro x o k1 k2
    have : tmp ≠ some x := by
      intro e
      rcases (j.tmpAt x e).1 with k | ⟨_, k⟩
      · rw [k1] at k; cases k; exact k2.1 rfl
      · rw [k1] at k; cases k; exact k2.2 _ rfl
    rw [t2 x, if_neg this]; exact k1
  have r1 : WRep s1 w q h patt (.at l) d := ⟨old j.rep.atw (by simp), j.rep.pat, ⟨b, old hb (by simp), hc⟩, j.rep.hnd, by rw [t3]; exact j.rep.pos⟩
  obtain ⟨s2, c1, c2, c3, c4, c5, c6, c7, c8⟩ := wclosedir_spec r1
  have ed : ∀ {x : Nat} {o : Obj}, s.heap x = some o → (∀ w, o ≠ .dir w) → x ≠ dir := by
    rintro x o k1 k2 rfl
    rw [j.dirAt] at k1; cases k1; exact k2 _ rfl
  have ew : ∀ {x : Nat} {o : Obj}, s.heap x = some o → (∀ w, o ≠ .wdir w) → x ≠ w := by
    rintro x o k1 k2 rfl
    rw [j.rep.atw] at k1; cases k1; exact k2 _ rfl
  have eq : ∀ {x : Nat} {o : Obj}, s.heap x = some o → (∀ b, o ≠ .buf b) → x ≠ q := by
    rintro x o k1 k2 rfl
    rw [hb] at k1; cases k1; exact k2 _ rfl
  have hd2 : s2.heap dir = some (.dir w) := by
    rw [c4 dir (ew j.dirAt (by simp)) (eq j.dirAt (by simp))]
    exact old j.dirAt (by simp)
  have heap : ∀ x, (s2.put dir none).heap x = if x = dir ∨ x = w ∨ x = q ∨ tmp = some x then none else s.heap x := by
    intro x
    by_cases e1 : x = dir
    · simp [Sys.put, e1]
    · have : (s2.put dir none).heap x = s2.heap x := by simp [Sys.put, e1]
      rw [this]
      by_cases e2 : x = w
      · subst e2; simp [c2]
      · by_cases e3 : x = q
        · subst e3; simp [c3]
        · rw [c4 x e2 e3, t2 x]; simp [e1, e2, e3]
  refine ⟨s1, s2.put dir none, t1, ?_, ?_, ?_, ?_, c8.trans t5⟩
  · unfold closedir
    simp only [getDir_of (old j.dirAt (by simp)), Option.bind_eq_bind, Option.bind_some, c1, free_some hd2, Option.pure_def]
  · rcases j.tab with ⟨k1, k2, _⟩ | ⟨f, f1, f2⟩
    · subst k1; subst k2
      refine .inl ⟨rfl, rfl, ?_⟩
      intro x
      rw [heap x]
      by_cases k : x = dir ∨ x = w ∨ x = q ∨ tmp = some x
      · rw [if_pos k]
        refine (j.fresh x ?_).symm
        rcases k with k | k | k | k
        · exact .inl k
        · exact .inr (.inl k)
        · exact .inr (.inr (.inl k))
        · exact .inr (.inr (.inr (.inl k)))
      · rw [if_neg k]
        refine j.other x ?_
        rintro (k' | k' | k' | k' | k' | k')
        · exact k (.inl k')
        · exact k (.inr (.inl k'))
        · exact k (.inr (.inr (.inl k')))
        · exact k (.inr (.inr (.inr k')))
        · cases k'
        · cases k'
    · subst f1
      have keep : ∀ {x : Nat} {o : Obj}, s.heap x = some o → (∀ w, o ≠ .dir w) → (∀ w, o ≠ .wdir w) → (∀ w, o ≠ .buf w) → tmp ≠ some x → (s2.put dir none).heap x = some o := by
        intro x o k1 k2 k3 k4 k5
        rw [heap x, if_neg]
        · exact k1
        · rintro (k | k | k | k)
          · exact ed k1 k2 k
          · exact ew k1 k3 k
          · exact eq k1 k4 k
          · exact k5 k
      refine .inr ⟨f, alloc, kept, rfl, keep f2 (by simp) (by simp) (by simp) ?_, rfl, by simpa using j.cap, j.nodup, ?_, ?_, ?_, ?_⟩
      · intro e
        rcases (j.tmpAt f e).1 with k | ⟨_, k⟩ <;> (rw [f2] at k; cases k)
      · intro k
        obtain ⟨p, hp, he⟩ := List.mem_map.1 k
        have := j.ents p hp
        rw [he, f2] at this; cases this
      · intro p hp
        refine keep (j.ents p hp) (by simp) (by simp) (by simp) ?_
        intro e
        exact (j.tmpAt _ e).2 (List.mem_map.2 ⟨p, hp, rfl⟩)
      · rintro x (rfl | k)
        · exact j.fresh x (.inr (.inr (.inr (.inr (.inl rfl)))))
        · exact j.fresh x (.inr (.inr (.inr (.inr (.inr k)))))
      · intro x hx
        rw [heap x]
        by_cases k : x = dir ∨ x = w ∨ x = q ∨ tmp = some x
        · rw [if_pos k]
          refine (j.fresh x ?_).symm
          rcases k with k | k | k | k
          · exact .inl k
          · exact .inr (.inl k)
          · exact .inr (.inr (.inl k))
          · exact .inr (.inr (.inr (.inl k)))
        · rw [if_neg k]
          refine j.other x ?_
          rintro (k' | k' | k' | k' | k' | k')
          · exact k (.inl k')
          · exact k (.inr (.inl k'))
          · exact k (.inr (.inr (.inl k')))
          · exact k (.inr (.inr (.inr k')))
          · cases k'; exact hx (.inl rfl)
          · exact hx (.inr k')
  · intro y
    show s2.handles y = _
    by_cases e : h = some y
    · rw [c5 y e]; exact (j.hfresh y e).symm
    · rw [c6 y e, t3]; exact j.hnd y e
  · show s0.next ≤ s2.next
    rw [c7, t4]; exact j.ge

/-- **C82.** `scandir` gives `-1` and leaves nothing behind if the directory cannot be opened or memory runs out; otherwise the number of entries the
filter accepts, and a table of these entries, sorted, which is all there is more than before; no search is left open. -/
theorem scandir_spec (loc : Locale) {s0 : Sys} (hlt : ∀ x, s0.heap x ≠ none → x < s0.next) (hlt' : ∀ y, s0.handles y ≠ none → y < s0.next) (name : List Byte) (namelist : Bool)
    (filter : Option (Ent Byte → Bool)) {cmp : Cmp} {qs : List (Nat × Ent Byte) → List (Nat × Ent Byte)} (hq : QsortOk cmp qs) {a : ScanAns} (hv : a.openAns.Valid) :
    match Spec.openBytes loc name a.openAns with
    | .fail e => ∃ s', scandir loc s0 (some name) namelist filter (some cmp) qs a = some (-1, none, s') ∧ Same s0 s' ∧ s'.errno = e.getD s0.errno
    | .ok _ l =>
      (∃ s' files es, scandir loc s0 (some name) namelist filter (some cmp) qs a = some ((es.length : Int), if namelist then some files else none, s') ∧
        es.Perm (wanted filter (entries loc l)) ∧ (Order cmp → es.Pairwise fun x y => cmp x y ≤ 0) ∧ Result s0 s' files es ∧ ∀ y, s'.handles y = s0.handles y) ∨
      ((∃ s', scandir loc s0 (some name) namelist filter (some cmp) qs a = some (-1, none, s') ∧ Same s0 s') ∧
        NoMem a 0 (wanted filter (entries loc l)).length) := by
  have ho := opendir_spec loc (name := name) hlt hlt' hv
  cases e : Spec.openBytes loc name a.openAns with
  | fail er =>
    rw [e] at ho
    obtain ⟨s', o1, o2, o3⟩ := ho
    refine ⟨s', ?_, o2, o3⟩
    unfold scandir
    simp [o1]
  | ok patt l =>
    rw [e] at ho
    obtain ⟨s1, d, o1, o2, o3, o4, o5, o6, o7⟩ := ho
    have nb : ∀ x, s0.next ≤ x → s0.heap x = none := by
      intro x hx
      cases e : s0.heap x with
      | none => rfl
      | some o => exact absurd (hlt x (by simp [e])) (by omega)
    have j : J s0 s1 s0.next (s0.next + 1) (s0.next + 2) (some (s0.next + 3)) patt l d none none 0 [] := by
      refine ⟨o2, o3, (by intro t ht; cases ht), .inl ⟨rfl, rfl, rfl⟩, (by intro p hp; cases hp), List.nodup_nil, Nat.le_refl _, ?_, ?_, by omega, ?_, ?_, ?_, hlt⟩
      · rintro x (k | k | k | k | k | k)
        · exact nb x (by omega)
        · exact nb x (by omega)
        · exact nb x (by omega)
        · cases k
        · cases k
        · cases k
      · intro x hx
        by_cases k : x = s0.next ∨ x = s0.next + 1 ∨ x = s0.next + 2
        · omega
        · rw [o4 x (by omega) (by omega) (by omega)] at hx
          have := hlt x hx
          omega
      · intro x hx
        exact o4 x (fun k => hx (.inl k)) (fun k => hx (.inr (.inl k))) (fun k => hx (.inr (.inr (.inl k))))
      · intro y hy
        cases hy
        cases e : s0.handles (s0.next + 3) with
        | none => rfl
        | some o => exact absurd (hlt' (s0.next + 3) (by simp [e])) (by omega)
      · intro y hy
        exact o5 y fun k => hy (by rw [k])
    have hb : l.length < scanBound s1 s0.next := by
      obtain ⟨_, ⟨y, r, h1, h2, h3⟩, _⟩ := o3.pos
      unfold scanBound bound
      simp only [getDir_of o2, getW_of o3.atw, Option.bind_some, h1, h2]
      rw [h3]
      split
      · simp
      · omega
    obtain ⟨ok, s2, l', d', tmp, files, alloc, kept, i1, i2, i3, i4⟩ := scanLoop_spec loc filter a l (scanBound s1 s0.next) s1 d none none 0 [] hb j
    simp only [List.length_nil] at i1
    simp only
    unfold scandir
    simp only [o1, i1, Option.bind_eq_bind, Option.bind_some]
    cases ok with
    | true =>
      simp only [if_true]
      have hk := i3 rfl
      simp only [List.map_nil, List.nil_append] at hk
      have hp := (hq kept).1
      obtain ⟨s3, q1, q2, q3⟩ := i2.sort cmp hp
      obtain ⟨s4, s5, f1, f2, f3, f4, f5, f6⟩ := q2.finish
      simp only [q1, f1, f2, Option.bind_some, Option.pure_def]
      refine .inl ⟨s5, files, (qs kept).map (·.2), ?_, ?_, ?_, f3, f4⟩
      · rw [List.length_map, hp.length_eq]
      · rw [← hk]; exact hp.map _
      · intro ho
        exact List.pairwise_map.2 ((hq kept).2 ho)
    | false =>
      have hn := i4 rfl
      simp only [List.length_nil, Nat.zero_add] at hn
      obtain ⟨t1, s3, s4, t2, t3, t4, t5⟩ := i2.drop
      obtain ⟨s5, s6, f1, f2, f3, f4, f5, f6⟩ := t4.finish
      have hlen : (kept.map (·.1)).take kept.length = kept.map (·.1) := List.take_of_length_le (by simp)
      have hnl : ¬ (kept.map (·.1)).length < kept.length := by simp
      simp only [Bool.false_eq_true, if_false, t1, Option.bind_some, hnl, hlen, t2, t3, f1, f2, Option.pure_def]
      refine .inr ⟨⟨s6, rfl, ?_, f4, f5⟩, hn⟩
      rcases f3 with ⟨_, _, k⟩ | ⟨f, cap, ps, k, _⟩
      · exact k
      · cases k

/-- With enough memory it succeeds. -/
theorem scandir_ok (loc : Locale) {s0 : Sys} (hlt : ∀ x, s0.heap x ≠ none → x < s0.next) (hlt' : ∀ y, s0.handles y ≠ none → y < s0.next) (name : List Byte)
    (filter : Option (Ent Byte → Bool)) {cmp : Cmp} {qs : List (Nat × Ent Byte) → List (Nat × Ent Byte)} (hq : QsortOk cmp qs) {a : ScanAns} (hv : a.openAns.Valid)
    (h1 : ∀ i, a.entOk i = true) (h2 : ∀ i, a.tabOk i = true) {patt : List W} {l : List FindData} (ho : Spec.openBytes loc name a.openAns = .ok patt l) :
    ∃ s' files es, scandir loc s0 (some name) true filter (some cmp) qs a = some ((es.length : Int), some files, s') ∧
        es.Perm (wanted filter (entries loc l)) ∧ Result s0 s' files es := by
  have := scandir_spec loc hlt hlt' name true filter hq hv
  rw [ho] at this
  rcases this with ⟨s', f, es, k1, k2, _, k3, _⟩ | ⟨_, i, _, k | k⟩
  · exact ⟨s', f, es, by simpa using k1, k2, k3⟩
  · rw [h1 i] at k; cases k.2
  · rw [h2 i] at k; cases k.2

/-- The caller can give everything back: the entries and the table freed, the memory is as before. -/
theorem release {s0 s : Sys} {files : Option Nat} {es : List (Ent Byte)} (h : Result s0 s files es) :
    ∃ ps s1 s2, tablePtrs s files = some ps ∧ freeAll s ps = some s1 ∧ free s1 files = some s2 ∧ ∀ x, s2.heap x = s0.heap x := by
  rcases h with ⟨rfl, rfl, h⟩ | ⟨f, cap, ps, rfl, h1, rfl, _, h2, h3, h4, h5, h6⟩
  · exact ⟨[], s, s, rfl, rfl, rfl, h⟩
  · obtain ⟨s1, a1, a2, a3, a4, a5⟩ := freeAll_spec (ps.map (·.1)) s h2 (by
      intro x hx
      obtain ⟨p, hp, rfl⟩ := List.mem_map.1 hx
      simp [h4 p hp])
    have : s1.heap f = some (.ptrs cap (ps.map (·.1))) := by rw [a2 f, if_neg h3]; exact h1
    refine ⟨_, s1, s1.put f none, by simp [tablePtrs, h1], a1, free_some this, ?_⟩
    intro x
    by_cases e : x = f
    · subst e; simp [Sys.put, h5 x (.inl rfl)]
    · have : (s1.put f none).heap x = s1.heap x := by simp [Sys.put, e]
      rw [this, a2 x]
      by_cases k : x ∈ ps.map (·.1)
      · rw [if_pos k]; exact (h5 x (.inr k)).symm
      · rw [if_neg k]; exact h6 x (fun k' => k'.elim e k)

/-- A null directory name is an error. -/
theorem scandir_null (loc : Locale) (s : Sys) (nl : Bool) (filter : Option (Ent Byte → Bool)) (cmp : Option Cmp) (qs : List (Nat × Ent Byte) → List (Nat × Ent Byte)) (a : ScanAns) :
    scandir loc s none nl filter cmp qs a = some (-1, none, { s with errno := 2 }) := rfl

/-- `strcmp`-like comparison of names. -/
def byName : Cmp := fun x y => if x.name < y.name then -1 else if x.name = y.name then 0 else 1

def insertSort (cmp : Cmp) : List (Nat × Ent Byte) → List (Nat × Ent Byte)
  | [] => []
  | x :: l => ins x (insertSort cmp l)
where
  ins (x : Nat × Ent Byte) : List (Nat × Ent Byte) → List (Nat × Ent Byte)
    | [] => [x]
    | y :: l => if cmp x.2 y.2 ≤ 0 then x :: y :: l else y :: ins x l

/-- The premises of `scandir_spec` about `qsort` and `compare` can be met. -/
theorem ins_perm (cmp : Cmp) (x : Nat × Ent Byte) : ∀ l, (insertSort.ins cmp x l).Perm (x :: l)
  | [] => .refl _
  | y :: l => by
    unfold insertSort.ins
    split
    · exact .refl _
    · exact ((ins_perm cmp x l).cons y).trans (.swap ..)

theorem ins_sorted {cmp : Cmp} (o : Order cmp) (x : Nat × Ent Byte) : ∀ l, l.Pairwise (fun a b => cmp a.2 b.2 ≤ 0) → (insertSort.ins cmp x l).Pairwise fun a b => cmp a.2 b.2 ≤ 0
  | [], _ => by simp [insertSort.ins]
  | y :: l, h => by
    have h' := List.pairwise_cons.1 h
    unfold insertSort.ins
    split
    · next hxy =>
      refine List.pairwise_cons.2 ⟨?_, h⟩
      intro z hz
      rcases List.mem_cons.1 hz with rfl | hz
      · exact hxy
      · exact o.trans _ _ _ hxy (h'.1 z hz)
    · next hxy =>
      refine List.pairwise_cons.2 ⟨?_, ins_sorted o x l h'.2⟩
      intro z hz
      rcases List.mem_cons.1 ((ins_perm cmp x l).mem_iff.1 hz) with rfl | hz
      · exact (o.total _ _).resolve_left hxy
      · exact h'.1 z hz

theorem insertSort_ok (cmp : Cmp) : QsortOk cmp (insertSort cmp) := by
  intro l
  induction l with
  | nil => exact ⟨.refl _, fun _ => .nil⟩
  | cons x l ih => exact ⟨(ins_perm cmp x _).trans (ih.1.cons x), fun o => ins_sorted o x _ (ih.2 o)⟩

theorem byName_order : Order byName := by
  have h : ∀ a b, byName a b ≤ 0 ↔ a.name ≤ b.name := by
    intro a b
    unfold byName
    by_cases h1 : a.name < b.name
    · simp [h1, List.le_of_lt h1]
    · by_cases h2 : a.name = b.name
      · simp only [h1, h2, if_false, if_true]; exact ⟨fun _ => List.le_refl _, fun _ => by split <;> omega⟩
      · simp only [h1, h2, if_false]
        constructor
        · intro h; omega
        · intro h; exact absurd (List.le_antisymm h (List.not_lt.1 h1)) h2
  exact ⟨fun a b => by rw [h, h]; exact List.le_total .., fun a b c => by rw [h, h, h]; exact List.le_trans⟩

def demoScan : ScanAns := ⟨{ demoAns with find := fun _ => .ok (file [98] 32) [file [99] 16, file [97] 32] }, fun _ => true, fun _ => true⟩

/-- Two regular files of three entries, sorted. -/
theorem scan_demo : (scandir latin Sys.init (some [100]) true (some fun e => e.type == 0x8000) (some byName) (insertSort byName) demoScan).bind
      (fun (n, f, s) => ((f.bind fun f => tablePtrs s f).bind fun l => l.mapM (getEnt s)).map fun l => (n, l.map (·.2.name))) = some (2, [[97], [98]]) := by
  decide +kernel

/-- FINDING: POSIX allows a null `compare` (the order is then not specified); this implementation calls it. -/
theorem null_compare : scandir latin Sys.init (some [100]) true none none (insertSort byName) demoScan = none := by
  have : (scandir latin Sys.init (some [100]) true none none (insertSort byName) demoScan).isNone = true := by decide +kernel
  exact Option.isNone_iff_eq_none.1 this

end Verif.Dirent
