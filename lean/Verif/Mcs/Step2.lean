import Verif.Mcs.Step

/-! # Steps that change two nodes or the queue -/
namespace Verif.Mcs

attribute [local grind] InQ Own Waits Unset

attribute [local grind cases] HeadOK AdjOK LastOK

/-- As `clauses`, with a given proof for neighbours. -/
macro "clauses2" h:ident t:tacticSeq : tactic => `(tactic| (
  constructor
  · exact ($h).nodup
  · have := ($h).lock; grind
  · intro k; have := ($h).mem k; grind
  · intro k hk; have h0 := ($h).head k hk; constructor <;> grind (splits := 16)
  · $t
  · intro k hk; have h0 := ($h).last k hk; constructor <;> grind
  · have := ($h).own; grind
  · have := ($h).r6; grind
  · have := ($h).r6u; grind
  · have := ($h).a0; grind
  · have := ($h).ub; grind
  · have := ($h).bad; grind
  · have := ($h).arr; grind
  · have := ($h).entY; have := ($h).entN; grind
  · have := ($h).entN; grind))

set_option maxHeartbeats 4000000 in
theorem step_a1 {s s' : Sys} {q rm : List Nat} {p r : Nat} (h : Inv s q rm) (hpc : (s.nd p).pc = .a1 r)
    (e : run s p = some s') : Inv s' q rm := by
  simp only [run, hpc] at e
  have hq := (h.mem p).2 (by rw [hpc]; simp [InQ])
  have hadj : Adj q r p := by
    rcases Adj.of_mem_head hq with e | ⟨b, e⟩
    · exact absurd hpc ((h.head p e).a1 r)
    · rwa [(h.adj _ _ e).pred1 r hpc]
  have hnh := hadj.not_head h.nodup
  have hr := (h.mem r).1 hadj.mem.1
  have hu1 : ∀ k, Adj q r k → k = p := fun k hk => Adj.uniq_right h.nodup hk hadj
  have hu2 : ∀ k, Adj q k p → k = r := fun k hk => Adj.uniq_left h.nodup hk hadj
  have hl := hadj.not_last h.nodup
  have h1 := h.adj _ _ hadj
  have hpr : p ≠ r := (hadj.ne h.nodup).symm
  have hx : Two s s' p { s.nd p with pc := .a2 r } r { s.nd r with next := some p } := by
    cases e; exact two_go s _ _ _ _ hpr
  have hb : s'.bad = (s.bad || decide ((s.nd r).pc = .gone)) := by cases e; rfl
  clear e
  obtain ⟨e1, e2, e3, e3', e4, e5, e6⟩ := hx
  clauses2 h
    intro k l hkl
    by_cases h2 : k = r
    · subst h2
      cases hu1 l hkl
      constructor <;> grind
    · have h0 := h.adj k l hkl
      have h3 : l ≠ p := fun e => h2 (hu2 k (e ▸ hkl))
      by_cases h4 : l = r
      · subst h4
        clear h1
        constructor <;> grind (splits := 16)
      · have el := e3 l h3 h4
        by_cases h5 : k = p
        · subst h5
          clear h1
          constructor <;> grind (splits := 16)
        · have ek := e3 k h5 h2
          clear h1 e1 e2
          exact h0.congr ek el

set_option maxHeartbeats 4000000 in
theorem step_a2 {s s' : Sys} {q rm : List Nat} {p r : Nat} (h : Inv s q rm) (hpc : (s.nd p).pc = .a2 r)
    (e : run s p = some s') : Inv s' q rm := by
  simp only [run, hpc] at e
  have hq := (h.mem p).2 (by rw [hpc]; simp [InQ])
  by_cases hadj : Adj q r p
  · have hnh := hadj.not_head h.nodup
    have hr := (h.mem r).1 hadj.mem.1
    have hu1 : ∀ k, Adj q r k → k = p := fun k hk => Adj.uniq_right h.nodup hk hadj
    have hu2 : ∀ k, Adj q k p → k = r := fun k hk => Adj.uniq_left h.nodup hk hadj
    have hl := hadj.not_last h.nodup
    have h1 := h.adj _ _ hadj
    have hpr : p ≠ r := (hadj.ne h.nodup).symm
    split at e
    · have hx : Two s s' p { s.nd p with pc := .w0 } r { s.nd r with nf := .one } := by
        cases e; exact two_go s _ _ _ _ hpr
      have hb : s'.bad = s.bad := by cases e; rfl
      clear e
      obtain ⟨e1, e2, e3, e3', e4, e5, e6⟩ := hx
      clauses2 h
        intro k l hkl
        by_cases h2 : k = r
        · subst h2
          cases hu1 l hkl
          constructor <;> grind
        · have h0 := h.adj k l hkl
          have h3 : l ≠ p := fun e => h2 (hu2 k (e ▸ hkl))
          by_cases h4 : l = r
          · subst h4
            clear h1
            constructor <;> grind (splits := 16)
          · have el := e3 l h3 h4
            by_cases h5 : k = p
            · subst h5
              clear h1
              constructor <;> grind (splits := 16)
            · have ek := e3 k h5 h2
              clear h1 e1 e2
              exact h0.congr ek el
    · have hx : One s s' p { s.nd p with pc := .a2e r } [] := by cases e; exact { one_go s p (.a2e r) with }
      clear e
      obtain ⟨e1, e2, e2', e3, e4, e5, e6⟩ := hx
      clauses2 h
        intro k l hkl
        have h0 := h.adj k l hkl
        by_cases h3 : l = p
        · subst h3
          cases hu2 k hkl
          have ek := e2 _ hpr.symm
          constructor <;> grind
        · have el := e2 l h3
          by_cases h5 : k = p
          · subst h5
            clear h1
            constructor <;> grind (splits := 16)
          · exact h0.congr (e2 k h5) el
  · have hh : q.head? = some p := by
      rcases Adj.of_mem_head hq with e | ⟨b, e⟩
      · exact e
      · exact absurd ((h.adj _ _ e).pred2 r hpc ▸ e) hadj
    have hg := (h.head p hh).a2 r hpc
    have hpr : p ≠ r := by rintro rfl; simp_all
    rw [if_pos hg.2] at e
    have hx : Two s s' p { s.nd p with pc := .w0 } r { s.nd r with nf := .one } := by
      cases e; exact two_go s _ _ _ _ hpr
    have hb : s'.bad = s.bad := by cases e; rfl
    clear e
    have hr : r ∉ q := fun e => by have := (h.mem r).1 e; grind
    obtain ⟨e1, e2, e3, e3', e4, e5, e6⟩ := hx
    clauses2 h
      intro k l hkl
      have h0 := h.adj k l hkl
      have h3 : l ≠ p := fun e => (e ▸ hkl).not_head h.nodup hh
      have h4 : k ≠ r := fun e => hr (e ▸ hkl.mem.1)
      have h5 : l ≠ r := fun e => hr (e ▸ hkl.mem.2)
      have el := e3 l h3 h5
      by_cases h5 : k = p
      · subst h5
        constructor <;> grind (splits := 16)
      · exact h0.congr (e3 k h5 h4) el

set_option maxHeartbeats 4000000 in
theorem step_a2e {s s' : Sys} {q rm : List Nat} {p r : Nat} (h : Inv s q rm) (hpc : (s.nd p).pc = .a2e r)
    (e : run s p = some s') : Inv s' q rm := by
  simp only [run, hpc] at e
  have hq := (h.mem p).2 (by rw [hpc]; simp [InQ])
  have hadj : Adj q r p := by
    rcases Adj.of_mem_head hq with e | ⟨b, e⟩
    · exact absurd hpc ((h.head p e).a2e r)
    · rwa [(h.adj _ _ e).pred3 r hpc]
  have hnh := hadj.not_head h.nodup
  have hr := (h.mem r).1 hadj.mem.1
  have hu1 : ∀ k, Adj q r k → k = p := fun k hk => Adj.uniq_right h.nodup hk hadj
  have hu2 : ∀ k, Adj q k p → k = r := fun k hk => Adj.uniq_left h.nodup hk hadj
  have hl := hadj.not_last h.nodup
  have h1 := h.adj _ _ hadj
  have hpr : p ≠ r := (hadj.ne h.nodup).symm
  have hx : Two s s' p { s.nd p with pc := .w0 } r { s.nd r with ne := true } := by
    cases e; exact two_go s _ _ _ _ hpr
  have h9 := h1.link4 ⟨r, hpc⟩
  have hb : s'.bad = s.bad := by
    cases e
    simp only [h9, h.bad]
    rfl
  clear e
  obtain ⟨e1, e2, e3, e3', e4, e5, e6⟩ := hx
  clauses2 h
    intro k l hkl
    by_cases h2 : k = r
    · subst h2
      cases hu1 l hkl
      constructor <;> grind
    · have h0 := h.adj k l hkl
      have h3 : l ≠ p := fun e => h2 (hu2 k (e ▸ hkl))
      by_cases h4 : l = r
      · subst h4
        clear h1
        constructor <;> grind (splits := 16)
      · have el := e3 l h3 h4
        by_cases h5 : k = p
        · subst h5
          clear h1
          constructor <;> grind (splits := 16)
        · have ek := e3 k h5 h2
          clear h1 e1 e2
          exact h0.congr ek el

set_option maxHeartbeats 4000000 in
theorem step_r6 {s s' : Sys} {q rm : List Nat} {p n : Nat} (h : Inv s q rm) (hpc : (s.nd p).pc = .r6 n)
    (e : run s p = some s') : Inv s' q rm := by
  simp only [run, hpc] at e
  have h6 := h.r6 p n hpc
  have hpr : p ≠ n := by rintro rfl; simp_all
  have h7 := ((h.head n h6.1).w2 h6.2.1).1
  have hx : Two s s' p { s.nd p with pc := .gone } n { s.nd n with re := true } := by
    cases e; exact two_go s _ _ _ _ hpr
  have hb : s'.bad = s.bad := by
    cases e
    simp only [h6, h7, h.bad]
    rfl
  clear e
  have hr : p ∉ q := fun e => by have := (h.mem p).1 e; grind
  have hu := h.r6u
  obtain ⟨e1, e2, e3, e3', e4, e5, e6⟩ := hx
  clauses2 h
    intro k l hkl
    have h0 := h.adj k l hkl
    have h3 : l ≠ n := fun e => (e ▸ hkl).not_head h.nodup h6.1
    have h4 : k ≠ p := fun e => hr (e ▸ hkl.mem.1)
    have h5 : l ≠ p := fun e => hr (e ▸ hkl.mem.2)
    have el := e3 l h5 h3
    by_cases h5 : k = n
    · subst h5
      constructor <;> grind (splits := 16)
    · exact h0.congr (e3 k h4 h5) el

end Verif.Mcs
