import Verif.Mcs.Inv

/-! # Steps that leave the queue alone preserve the invariant -/
namespace Verif.Mcs

attribute [local grind] InQ Own Waits Unset

attribute [local grind cases] HeadOK AdjOK LastOK

theorem upd_self (f : Nat → Node) (p : Nat) (x : Node) : upd f p x p = x := by simp [upd]
theorem upd_other (f : Nat → Node) (p : Nat) (x : Node) {k : Nat} (h : k ≠ p) : upd f p x k = f k := by
  simp [upd, h]

theorem Inv.owner_head {s : Sys} {q rm : List Nat} (h : Inv s q rm) {p : Nat} (hp : InQ (s.nd p).pc)
    (hw : ¬ Waits (s.nd p).pc) : q.head? = some p := by
  rcases Adj.of_mem_head ((h.mem p).2 hp) with e | ⟨b, e⟩
  · exact e
  · exact absurd (h.adj _ _ e).waits hw

/-- A change of one node. -/
structure One (s s' : Sys) (p : Nat) (x : Node) (en : List Nat) : Prop where
  self : s'.nd p = x
  other : ∀ k, k ≠ p → s'.nd k = s.nd k
  other' : ∀ k, k ≠ p → s.nd k = s'.nd k
  lock : s'.lock = s.lock
  bad : s'.bad = s.bad
  arr : s'.arr = s.arr
  ent : s'.ent = s.ent ++ en

theorem one_go (s : Sys) (p : Nat) (c : Pc) : One s (s.go p c) p { s.nd p with pc := c } [] :=
  ⟨upd_self _ _ _, fun k hk => upd_other _ _ _ hk, fun k hk => (upd_other _ _ _ hk).symm, rfl, rfl, rfl,
    by simp [Sys.go, Sys.set]⟩

theorem one_set (s : Sys) (p : Nat) (x : Node) : One s (s.set p x) p x [] :=
  ⟨upd_self _ _ _, fun k hk => upd_other _ _ _ hk, fun k hk => (upd_other _ _ _ hk).symm, rfl, rfl, rfl,
    by simp [Sys.set]⟩

theorem one_enter (s : Sys) (p : Nat) : One s (s.enter p) p { s.nd p with pc := .hold } [p] :=
  ⟨upd_self _ _ _, fun k hk => upd_other _ _ _ hk, fun k hk => (upd_other _ _ _ hk).symm, rfl, rfl, rfl, rfl⟩

theorem one_enter2 (s : Sys) (p : Nat) :
    One s ((s.set p { s.nd p with re := false }).enter p) p { s.nd p with re := false, pc := .hold } [p] := by
  refine ⟨?_, fun k hk => ?_, fun k hk => ?_, rfl, rfl, rfl, rfl⟩
  · simp [Sys.enter, Sys.go, Sys.set, upd]
  · simp [Sys.enter, Sys.go, Sys.set, upd, hk]
  · simp [Sys.enter, Sys.go, Sys.set, upd, hk]

/-- A change of two nodes. -/
structure Two (s s' : Sys) (p : Nat) (x : Node) (r : Nat) (y : Node) : Prop where
  self : s'.nd p = x
  snd : s'.nd r = y
  other : ∀ k, k ≠ p → k ≠ r → s'.nd k = s.nd k
  other' : ∀ k, k ≠ p → k ≠ r → s.nd k = s'.nd k
  lock : s'.lock = s.lock
  arr : s'.arr = s.arr
  ent : s'.ent = s.ent

theorem two_go (s : Sys) {p r : Nat} (y : Node) (c : Pc) (b1 b2 : Bool) (hpr : p ≠ r) :
    Two s { (s.set r y).go p c with late := b1, bad := b2 } p { s.nd p with pc := c } r y := by
  refine ⟨?_, ?_, fun k hk1 hk2 => ?_, fun k hk1 hk2 => ?_, rfl, rfl, rfl⟩
  · simp [Sys.go, Sys.set, upd, hpr]
  · simp [Sys.go, Sys.set, upd, hpr.symm]
  · simp [Sys.go, Sys.set, upd, hk1, hk2]
  · simp [Sys.go, Sys.set, upd, hk1, hk2]

/-- Discharge the clauses of the invariant for a step that leaves the queue alone. -/
macro "clauses" h:ident : tactic => `(tactic| (
  constructor
  · exact ($h).nodup
  · have := ($h).lock; grind
  · intro k; have := ($h).mem k; grind
  · intro k hk; have h0 := ($h).head k hk; constructor <;> grind
  · intro k l hkl; have h0 := ($h).adj k l hkl; constructor <;> grind
  · intro k hk; have h0 := ($h).last k hk; constructor <;> grind
  · have := ($h).own; grind
  · have := ($h).r6; grind
  · have := ($h).r6u; grind
  · have := ($h).a0; grind
  · have := ($h).ub; grind
  · have := ($h).bad; grind
  · have := ($h).arr; grind
  · have := ($h).entY; have := ($h).entN; grind
  · have := ($h).entN; grind))

theorem Inv.zero_tail {s : Sys} {q rm : List Nat} (h : Inv s q rm) {p : Nat}
    (hpc : (s.nd p).pc = .w0 ∨ (s.nd p).pc = .w1) (hz : (s.nd p).rf = .zero) : q.head? ≠ some p := by
  intro hh; have := (h.head p hh).rf (Or.inr hpc); simp_all

theorem Inv.one_head {s : Sys} {q rm : List Nat} (h : Inv s q rm) {p : Nat}
    (hpc : (s.nd p).pc = .w0 ∨ (s.nd p).pc = .w1) (hz : (s.nd p).rf ≠ .zero) : q.head? = some p := by
  have hq := (h.mem p).2 (by simp only [InQ]; grind)
  rcases Adj.of_mem_head hq with e | ⟨b, e⟩
  · exact e
  · have := (h.adj _ _ e).rf; grind

set_option maxHeartbeats 4000000 in
theorem step_w {s s' : Sys} {q rm : List Nat} {p : Nat} (h : Inv s q rm)
    (hpc : (s.nd p).pc = .w0 ∨ (s.nd p).pc = .w1) (hz : (s.nd p).rf ≠ .zero)
    (e : One s s' p { s.nd p with pc := .hold } [p]) : Inv s' q rm := by
  have hh := h.one_head hpc hz
  obtain ⟨e1, e2, e2', e3, e4, e5, e6⟩ := e
  clauses h

set_option maxHeartbeats 4000000 in
theorem step_w0 {s s' : Sys} {q rm : List Nat} {p : Nat} (h : Inv s q rm) (hpc : (s.nd p).pc = .w0)
    (e : run s p = some s') : Inv s' q rm := by
  simp only [run, hpc] at e
  split at e
  · have hnh := h.zero_tail (Or.inl hpc) (by assumption)
    have hx : One s s' p { s.nd p with pc := .w1 } [] := by cases e; exact one_go _ _ _
    clear e
    obtain ⟨e1, e2, e2', e3, e4, e5, e6⟩ := hx
    clauses h
  · exact step_w h (Or.inl hpc) (by assumption) (by cases e; exact one_enter _ _)

set_option maxHeartbeats 4000000 in
theorem step_w1 {s s' : Sys} {q rm : List Nat} {p : Nat} (h : Inv s q rm) (hpc : (s.nd p).pc = .w1)
    (e : run s p = some s') : Inv s' q rm := by
  simp only [run, hpc] at e
  split at e
  · have hnh := h.zero_tail (Or.inr hpc) (by assumption)
    have hx : One s s' p { s.nd p with rf := .ev, re := false, pc := .w2 } [] := by
      cases e; exact one_set _ _ _
    clear e
    obtain ⟨e1, e2, e2', e3, e4, e5, e6⟩ := hx
    clauses h
  · exact step_w h (Or.inr hpc) (by assumption) (by cases e; exact one_enter _ _)

set_option maxHeartbeats 4000000 in
theorem step_w2 {s s' : Sys} {q rm : List Nat} {p : Nat} (h : Inv s q rm) (hpc : (s.nd p).pc = .w2)
    (e : run s p = some s') : Inv s' q rm := by
  simp only [run, hpc] at e
  have hq := (h.mem p).2 (by simp only [InQ]; grind)
  split at e
  · have hh : q.head? = some p := by
      rcases Adj.of_mem_head hq with e | ⟨b, e⟩
      · exact e
      · have := (h.adj _ _ e).re; grind
    have hx : One s s' p { s.nd p with re := false, pc := .hold } [p] := by
      cases e; have h2 := one_enter2 s p; simp only [hpc] at h2; exact h2
    clear e
    obtain ⟨e1, e2, e2', e3, e4, e5, e6⟩ := hx
    clauses h
  · cases e

set_option maxHeartbeats 4000000 in
theorem step_release {s : Sys} {q rm : List Nat} {p : Nat} (h : Inv s q rm) (hpc : (s.nd p).pc = .hold) :
    Inv (callRelease s p) q rm := by
  have hx := one_go s p .r0
  have hh := h.owner_head (p := p) (by simp [hpc, InQ]) (by simp [hpc, Waits])
  simp only [callRelease]
  generalize s.go p .r0 = s' at *
  obtain ⟨e1, e2, e2', e3, e4, e5, e6⟩ := hx
  clauses h

set_option maxHeartbeats 4000000 in
theorem step_r0 {s s' : Sys} {q rm : List Nat} {p : Nat} (h : Inv s q rm) (hpc : (s.nd p).pc = .r0)
    (e : run s p = some s') : Inv s' q rm := by
  simp only [run, hpc] at e
  have hh := h.owner_head (p := p) (by simp [hpc, InQ]) (by simp [hpc, Waits])
  have ho := Adj.of_mem ((h.mem p).2 (by simp [hpc, InQ]))
  split at e
  · rename_i n hn
    have hx : One s s' p { s.nd p with pc := .r5 n } [] := by cases e; exact one_go _ _ _
    clear e
    obtain ⟨e1, e2, e2', e3, e4, e5, e6⟩ := hx
    clauses h
  · have hx : One s s' p { s.nd p with pc := .r1 } [] := by cases e; exact one_go _ _ _
    clear e
    obtain ⟨e1, e2, e2', e3, e4, e5, e6⟩ := hx
    clauses h

set_option maxHeartbeats 4000000 in
theorem step_r1 {s s' : Sys} {q rm : List Nat} {p : Nat} (h : Inv s q rm) (hpc : (s.nd p).pc = .r1)
    (hl : s.lock ≠ some p) (e : run s p = some s') : Inv s' q rm := by
  simp only [run, hpc, if_neg hl] at e
  have hh := h.owner_head (p := p) (by simp [hpc, InQ]) (by simp [hpc, Waits])
  have hl' := h.lock
  have hx : One s s' p { s.nd p with pc := .r2 } [] := by cases e; exact one_go _ _ _
  clear e
  obtain ⟨e1, e2, e2', e3, e4, e5, e6⟩ := hx
  clauses h

set_option maxHeartbeats 4000000 in
theorem step_r2 {s s' : Sys} {q rm : List Nat} {p : Nat} (h : Inv s q rm) (hpc : (s.nd p).pc = .r2)
    (e : run s p = some s') : Inv s' q rm := by
  simp only [run, hpc] at e
  have hh := h.owner_head (p := p) (by simp [hpc, InQ]) (by simp [hpc, Waits])
  split at e
  · have hx : One s s' p { s.nd p with pc := .r3 } [] := by cases e; exact one_go _ _ _
    clear e
    obtain ⟨e1, e2, e2', e3, e4, e5, e6⟩ := hx
    clauses h
  · have hx : One s s' p { s.nd p with pc := .r4 } [] := by cases e; exact one_go _ _ _
    clear e
    obtain ⟨e1, e2, e2', e3, e4, e5, e6⟩ := hx
    clauses h

set_option maxHeartbeats 4000000 in
theorem step_r3 {s s' : Sys} {q rm : List Nat} {p : Nat} (h : Inv s q rm) (hpc : (s.nd p).pc = .r3)
    (e : run s p = some s') : Inv s' q rm := by
  simp only [run, hpc] at e
  have hh := h.owner_head (p := p) (by simp [hpc, InQ]) (by simp [hpc, Waits])
  split at e
  · have hx : One s s' p { s.nd p with nf := .ev, ne := false, pc := .r3w } [] := by
      cases e; exact one_set _ _ _
    clear e
    obtain ⟨e1, e2, e2', e3, e4, e5, e6⟩ := hx
    clauses h
  · have hx : One s s' p { s.nd p with pc := .r4 } [] := by cases e; exact one_go _ _ _
    clear e
    obtain ⟨e1, e2, e2', e3, e4, e5, e6⟩ := hx
    clauses h

set_option maxHeartbeats 4000000 in
theorem step_r3w {s s' : Sys} {q rm : List Nat} {p : Nat} (h : Inv s q rm) (hpc : (s.nd p).pc = .r3w)
    (e : run s p = some s') : Inv s' q rm := by
  simp only [run, hpc] at e
  have hh := h.owner_head (p := p) (by simp [hpc, InQ]) (by simp [hpc, Waits])
  split at e
  · have hx : One s s' p { s.nd p with ne := false, pc := .r4 } [] := by
      cases e; exact one_set _ _ _
    clear e
    obtain ⟨e1, e2, e2', e3, e4, e5, e6⟩ := hx
    clauses h
  · cases e

set_option maxHeartbeats 4000000 in
theorem step_r4 {s s' : Sys} {q rm : List Nat} {p : Nat} (h : Inv s q rm) (hpc : (s.nd p).pc = .r4)
    (e : run s p = some s') : Inv s' q rm := by
  simp only [run, hpc] at e
  have hh := h.owner_head (p := p) (by simp [hpc, InQ]) (by simp [hpc, Waits])
  have ho := Adj.of_mem ((h.mem p).2 (by simp [hpc, InQ]))
  split at e
  · rename_i n hn
    have hx : One s s' p { s.nd p with pc := .r5 n } [] := by cases e; exact one_go _ _ _
    clear e
    obtain ⟨e1, e2, e2', e3, e4, e5, e6⟩ := hx
    clauses h
  · exfalso
    rcases ho with ho | ⟨b, ho⟩
    · exact (h.last _ ho).r4 hpc
    · have h0 := h.adj _ _ ho
      grind

end Verif.Mcs
