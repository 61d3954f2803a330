import Verif.Global.Spec
/-! # What the library's locks and the heap are at any time -/
namespace Verif.Global
open Verif.Portable Spec

/-- relative to the heap and the handles `s0` at the start -/
structure Inv (s0 s : St) : Prop where
  reach : Reach s
  heap : ∀ q k, (q, k) ∈ s.heap ↔ (q, k) ∈ s0.heap ∨ ∃ v, Slot k v ∧ s.var k v = some q
  new : ∀ k v q, Slot k v → s.var k v = some q → ∀ k', (q, k') ∉ s0.heap
  rest : ∀ k v, ¬ Slot k v → s.var k v = s0.var k v

theorem slot_thread {k v} (h : Slot k v) : k ≠ .thread := by cases h <;> decide

theorem Inv.distinct {s0 s : St} (i : Inv s0 s) {k v k' v' q} (h : Slot k v) (h' : Slot k' v')
    (hq : s.var k v = some q) (hq' : s.var k' v' = some q) : (k', v') = (k, v) := by
  have a := handle_valid i.reach (slot_thread h) hq
  have b := handle_valid i.reach (slot_thread h') hq'
  have := i.reach.inv.kind _ _ _ a.1 b.1
  subst this
  rw [a.2.2 v' hq']

theorem Inv.start {g : G} (h : Start g) : Inv g.p g.p where
  reach := h.1
  heap := by
    intro q k
    refine ⟨.inl, fun h' => h'.elim id fun ⟨v, hs, hv⟩ => ?_⟩
    rw [h.2.2 k v hs] at hv
    cases hv
  new := by
    intro k v q hs hv
    rw [h.2.2 k v hs] at hv
    cases hv
  rest := fun _ _ _ => rfl

theorem setVar_none {s : St} {k v} (h : s.var k v = none) : s.setVar k v none = s := by
  obtain ⟨f, hp, n, t⟩ := s
  unfold St.setVar
  congr 1
  funext k' v'
  by_cases hk : k' = k ∧ v' = v
  · obtain ⟨rfl, rfl⟩ := hk
    simp only [and_self, if_true]
    exact h.symm
  · simp [hk]

/-- creating one of the locks -/
theorem Inv.create {s0 s : St} (i : Inv s0 s) {k v f} (hs : Slot k v) (hn : s.var k v = none) {c : Call}
    (hc : inits c = some (k, some v, f)) (e : Env) :
    ∃ s' r, step s c e = some (s', r) ∧ Inv s0 s' ∧
      (∀ k' v', (k', v') ≠ (k, v) → s'.var k' v' = s.var k' v') ∧
      (s'.var k v ≠ none ↔ Ok e) := by
  obtain ⟨s', h1, h2, h3, h4⟩ := init_spec i.reach hc e
  refine ⟨s', _, h1, ?_, h2, ?_⟩
  · have hr : Reach s' := .step i.reach h1
    by_cases ok : e.oom = false ∧ e.ret = 0
    · obtain ⟨p, p1, p2, p3, p4, p5⟩ := h3 ok
      refine ⟨hr, ?_, ?_, ?_⟩
      · intro q k'
        rw [p5 (q, k')]
        constructor
        · rintro (h | h)
          · cases h
            exact .inr ⟨v, hs, p1⟩
          · rcases (i.heap q k').1 h with h | ⟨v', a, b⟩
            · exact .inl h
            · refine .inr ⟨v', a, ?_⟩
              rw [h2 k' v' ?_]
              · exact b
              · rintro ⟨⟩
                rw [hn] at b
                cases b
        · rintro (h | ⟨v', a, b⟩)
          · exact .inr ((i.heap q k').2 (.inl h))
          · by_cases hv : (k', v') = (k, v)
            · cases hv
              rw [p1] at b
              cases b
              exact .inl rfl
            · rw [h2 k' v' hv] at b
              exact .inr ((i.heap q k').2 (.inr ⟨v', a, b⟩))
      · intro k' v' q a b k''
        by_cases hv : (k', v') = (k, v)
        · cases hv
          rw [p1] at b
          cases b
          intro h
          exact p3 k'' ((i.heap _ _).2 (.inl h))
        · rw [h2 k' v' hv] at b
          exact i.new k' v' q a b k''
      · intro k' v' hns
        rw [h2 k' v' (by rintro ⟨⟩; exact hns hs)]
        exact i.rest k' v' hns
    · obtain ⟨p1, p2⟩ := h4 (by
        by_cases ho : e.oom = true
        · exact .inl ho
        · exact .inr fun h => ok ⟨by simpa using ho, h⟩)
      have all : ∀ k' v', s'.var k' v' = s.var k' v' := by
        intro k' v'
        by_cases hv : (k', v') = (k, v)
        · cases hv
          rw [p1, hn]
        · exact h2 k' v' hv
      refine ⟨hr, ?_, ?_, ?_⟩
      · intro q k'
        rw [p2 (q, k'), i.heap q k']
        simp only [all]
      · intro k' v' q a b
        rw [all] at b
        exact i.new k' v' q a b
      · intro k' v' hns
        rw [all]
        exact i.rest k' v' hns
  · constructor
    · intro h
      by_cases ok : e.oom = false ∧ e.ret = 0
      · exact ok
      · refine absurd (h4 ?_).1 h
        by_cases ho : e.oom = true
        · exact .inl ho
        · exact .inr fun h => ok ⟨by simpa using ho, h⟩
    · intro h
      obtain ⟨p, p1, _⟩ := h3 h
      rw [p1]
      exact fun h => nomatch h

/-- destroying one of the locks -/
theorem Inv.destroy {s0 s : St} (i : Inv s0 s) {k v f} (hs : Slot k v) (hn : s.var k v ≠ none) {c : Call}
    (hc : destroys c = some (k, some v, f)) (e : Env) :
    ∃ s' r, step s c e = some (s', r) ∧ Inv s0 s' ∧
      (∀ k' v', (k', v') ≠ (k, v) → s'.var k' v' = s.var k' v') ∧
      s'.var k v = none := by
  obtain ⟨p, hp⟩ := Option.ne_none_iff_exists'.1 hn
  obtain ⟨s', h1, h2, h3, h4, h5⟩ := destroy_spec i.reach hc hp e
  refine ⟨s', _, h1, ⟨.step i.reach h1, ?_, ?_, ?_⟩, h3, h2⟩
  · intro q k'
    rw [h4 q k', i.heap q k']
    constructor
    · rintro ⟨h | ⟨v', a, b⟩, hq⟩
      · exact .inl h
      · refine .inr ⟨v', a, ?_⟩
        rw [h3 k' v' ?_]
        · exact b
        · rintro ⟨⟩
          rw [hp] at b
          cases b
          exact hq rfl
    · rintro (h | ⟨v', a, b⟩)
      · refine ⟨.inl h, ?_⟩
        rintro rfl
        exact i.new k v q hs hp k' h
      · have hv : (k', v') ≠ (k, v) := by
          rintro ⟨⟩
          rw [h2] at b
          cases b
        rw [h3 k' v' hv] at b
        refine ⟨.inr ⟨v', a, b⟩, ?_⟩
        rintro rfl
        exact hv (i.distinct hs a hp b)
  · intro k' v' q a b
    have hv : (k', v') ≠ (k, v) := by
      rintro ⟨⟩
      rw [h2] at b
      cases b
    rw [h3 k' v' hv] at b
    exact i.new k' v' q a b
  · intro k' v' hns
    rw [h3 k' v' (by rintro ⟨⟩; exact hns hs)]
    exact i.rest k' v' hns

/-- using one of the locks -/
theorem Inv.use {s0 s : St} (i : Inv s0 s) {k v f p} (hp : s.var k v = some p) {c : Call}
    (hc : uses c = some (k, some v, f)) (e : Env) :
    ∃ s', step s c e = some (s', e.ret) ∧ Inv s0 s' ∧ s'.var = s.var ∧ s'.trace = s.trace ++ [⟨p, f, e.ret⟩] := by
  have h := use_spec i.reach hc hp e
  exact ⟨_, h, ⟨.step i.reach h, i.heap, i.new, i.rest⟩, rfl, rfl⟩

end Verif.Global
