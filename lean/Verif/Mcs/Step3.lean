import Verif.Mcs.Step2

/-! # Steps that change the queue, and reachable states -/
namespace Verif.Mcs

attribute [local grind] InQ Own Waits Unset

attribute [local grind cases] HeadOK AdjOK LastOK

set_option maxHeartbeats 4000000 in
theorem inv_init : Inv Sys.init [] [] := by
  constructor <;> simp [Sys.init, InQ, Adj.nil]

/-- `acquire` starts on a node no call uses and nobody is about to touch. -/
theorem step_acquire {s s' : Sys} {q rm : List Nat} {p : Nat} (h : Inv s q rm) (hpc : (s.nd p).pc = .gone)
    (ha : ∀ k, (s.nd k).pc ≠ .a2 p) {x : Node} (hx : One s s' p x [])
    (hxx : x = { pc := .a0 } ∨ x = {}) : Inv s' q rm := by
  have hq : p ∉ q := fun e => by have := (h.mem p).1 e; grind
  have hnl : q.getLast? ≠ some p := fun e => hq (List.mem_of_getLast? e)
  have hnh : q.head? ≠ some p := fun e => hq (List.mem_of_head? e)
  obtain ⟨e1, e2, e2', e3, e4, e5, e6⟩ := hx
  clauses2 h
    intro k l hkl
    have h0 := h.adj k l hkl
    exact h0.congr (e2 k (fun e => hq (e ▸ hkl.mem.1))) (e2 l (fun e => hq (e ▸ hkl.mem.2)))

/-- Joining an empty queue. -/
structure Join (s s' : Sys) (p : Nat) (c : Pc) (en : List Nat) : Prop where
  self : s'.nd p = { s.nd p with pc := c }
  other : ∀ k, k ≠ p → s'.nd k = s.nd k
  other' : ∀ k, k ≠ p → s.nd k = s'.nd k
  lock : s'.lock = some p
  bad : s'.bad = s.bad
  arr : s'.arr = s.arr ++ [p]
  ent : s'.ent = s.ent ++ en

set_option maxHeartbeats 4000000 in
theorem step_join_free {s s' : Sys} {q rm : List Nat} {p : Nat} (h : Inv s q rm)
    (hpc : (s.nd p).pc = .a0) (hl : s.lock = none) (e : Join s s' p .hold [p]) : Inv s' [p] rm := by
  have hq0 : q = [] := by
    have := h.lock; rw [hl] at this
    exact List.getLast?_eq_none_iff.1 this.symm
  subst hq0
  have ha := h.a0 p hpc
  have hm := h.mem
  have h6 := h.r6
  simp only [List.head?_nil, reduceCtorEq, false_and, imp_false] at h6
  obtain ⟨e1, e2, e2', e3, e4, e5, e6⟩ := e
  constructor
  · simp
  · simp [e3]
  · intro k; have := hm k; grind
  · intro k hk; constructor <;> grind
  · intro k l hkl; simp [Adj.cons_iff, Adj.nil] at hkl
  · intro k hk; constructor <;> grind
  · grind
  · intro k n hk; grind
  · intro k n hk; grind
  · have := h.a0; grind
  · have := h.ub; grind
  · have := h.bad; grind
  · have := h.arr; simp_all
  · have := h.entN (by simp); intro k hk _; simp at hk; rw [e6, this, hk]
  · intro hh; have := hh p (by simp); grind

set_option maxHeartbeats 4000000 in
theorem step_join {s s' : Sys} {q rm : List Nat} {p r : Nat} (h : Inv s q rm)
    (hpc : (s.nd p).pc = .a0) (hl : s.lock = some r) (e : Join s s' p (.a1 r) []) :
    Inv s' (q ++ [p]) rm := by
  have hq : p ∉ q := fun e => by have := (h.mem p).1 e; grind
  have hlast : q.getLast? = some r := by rw [← h.lock, hl]
  have hrq : r ∈ q := List.mem_of_getLast? hlast
  have hpr : p ≠ r := fun e => hq (e ▸ hrq)
  have ha := h.a0 p hpc
  have h1 := h.last r hlast
  have hhd : (q ++ [p]).head? = q.head? := by
    cases q with
    | nil => simp at hlast
    | cons => simp
  have hnh : q.head? ≠ some p := fun e => hq (List.mem_of_head? e)
  obtain ⟨e1, e2, e2', e3, e4, e5, e6⟩ := e
  constructor
  · rw [List.nodup_append]; have := h.nodup; grind
  · simp [e3]
  · intro k; have := h.mem k; simp only [List.mem_append, List.mem_singleton]; grind
  · rw [hhd]; intro k hk; have h0 := h.head k hk; constructor <;> grind (splits := 16)
  · intro k l hkl
    rcases Adj.snoc_iff.1 hkl with hkl | ⟨ek, el⟩
    · have h0 := h.adj k l hkl
      exact h0.congr (e2 k (fun e => hq (e ▸ hkl.mem.1))) (e2 l (fun e => hq (e ▸ hkl.mem.2)))
    · subst el
      have : k = r := by rw [hlast] at ek; exact (Option.some.inj ek).symm
      subst this
      have ek := e2 k hpr.symm
      constructor <;> grind
  · intro k hk
    have : k = p := by simpa using hk.symm
    subst this
    constructor <;> grind
  · rw [hhd]; have := h.own; grind
  · rw [hhd]; have := h.r6; grind
  · have := h.r6u; grind
  · have := h.a0; grind
  · have := h.ub; grind
  · have := h.bad; grind
  · have := h.arr; simp_all
  · rw [hhd]; have := h.entY; grind
  · rw [hhd]; intro hn; rw [e6, List.append_nil]
    refine h.entN (fun k hk => ?_)
    have := hn k hk
    rwa [e2 k (fun e => hnh (e ▸ hk))] at this

set_option maxHeartbeats 4000000 in
theorem step_a0 {s s' : Sys} {q rm : List Nat} {p : Nat} (h : Inv s q rm)
    (hpc : (s.nd p).pc = .a0) (e : run s p = some s') : ∃ q', Inv s' q' rm := by
  simp only [run, hpc] at e
  split at e
  · exact ⟨_, step_join_free h hpc (by assumption) (by
      cases e
      have := one_enter s p
      exact ⟨this.1, this.2, this.3, rfl, rfl, rfl, rfl⟩)⟩
  · rename_i r hr
    exact ⟨_, step_join h hpc (by assumption) (by
      cases e
      have := one_go s p (.a1 r)
      exact ⟨this.1, this.2, this.3, rfl, rfl, rfl, this.ent⟩)⟩

set_option maxHeartbeats 4000000 in
theorem step_try {s : Sys} {q rm : List Nat} {p : Nat} (h : Inv s q rm) (hpc : (s.nd p).pc = .gone)
    (ha : ∀ k, (s.nd k).pc ≠ .a2 p) : ∃ q', Inv (callTry s p) q' rm := by
  simp only [callTry]
  split
  · rename_i hl
    have h1 : Inv (s.set p { pc := .a0 }) q rm :=
      step_acquire h hpc ha (one_set s p _) (Or.inl rfl)
    refine ⟨_, step_join_free (p := p) h1 (by simp [Sys.set, upd]) hl ?_⟩
    refine ⟨?_, fun k hk => ?_, fun k hk => ?_, rfl, rfl, rfl, ?_⟩ <;> simp_all [Sys.enter, Sys.go, Sys.set, upd]
  · exact ⟨q, step_acquire h hpc ha (one_set s p _) (Or.inr rfl)⟩

set_option maxHeartbeats 4000000 in
theorem step_r1_free {s s' : Sys} {q rm : List Nat} {p : Nat} (h : Inv s q rm)
    (hpc : (s.nd p).pc = .r1) (hl : s.lock = some p) (e : run s p = some s') : Inv s' [] (rm ++ [p]) := by
  simp only [run, hpc, if_pos hl] at e
  have hh := h.owner_head (p := p) (by simp [hpc, InQ]) (by simp [hpc, Waits])
  have hlast : q.getLast? = some p := by rw [← h.lock, hl]
  have hq0 : q = [p] := by
    cases q with
    | nil => simp at hh
    | cons x t =>
      simp at hh; subst hh
      cases t with
      | nil => rfl
      | cons y t =>
        exfalso
        rw [List.getLast?_cons_cons] at hlast
        exact (List.nodup_cons.1 h.nodup).1 (List.mem_of_getLast? hlast)
  subst hq0
  have e1 : s'.nd p = { s.nd p with pc := .gone } := by cases e; exact upd_self _ _ _
  have e2 : ∀ k, k ≠ p → s'.nd k = s.nd k := by cases e; exact fun k hk => upd_other _ _ _ hk
  have e3 : s'.lock = none := by cases e; rfl
  have e4 : s'.bad = s.bad := by cases e; rfl
  have e5 : s'.arr = s.arr := by cases e; rfl
  have e6 : s'.ent = s.ent := by cases e; rfl
  clear e
  have h6 := h.r6
  constructor
  · simp
  · simp [e3]
  · intro k; have := h.mem k; grind
  · simp
  · intro k l hkl; exact (Adj.nil hkl).elim
  · simp
  · simp
  · intro k n hk; grind
  · intro k n hk; grind
  · have := h.a0; grind
  · have := h.ub; grind
  · have := h.bad; grind
  · have := h.arr; simp_all
  · simp
  · intro _; rw [e6]; exact h.entY p (by simp) (by simp [hpc, Own])

set_option maxHeartbeats 4000000 in
theorem step_r5 {s s' : Sys} {q rm : List Nat} {p n : Nat} (h : Inv s q rm)
    (hpc : (s.nd p).pc = .r5 n) (e : run s p = some s') : ∃ q', Inv s' q' (rm ++ [p]) := by
  simp only [run, hpc] at e
  have hh := h.owner_head (p := p) (by simp [hpc, InQ]) (by simp [hpc, Waits])
  have hnx := h.own p hh (by simp [hpc, Own]) n hpc
  obtain ⟨t, hqt⟩ : ∃ t, q = p :: t := by
    cases q with
    | nil => simp at hh
    | cons x t => simp at hh; subst hh; exact ⟨t, rfl⟩
  have hadj : Adj q p n := by
    rcases Adj.of_mem ((h.mem p).2 (by simp [hpc, InQ])) with ho | ⟨b, ho⟩
    · exact absurd hpc ((h.last _ ho).r5 n)
    · have h0 := h.adj _ _ ho
      have : (s.nd p).next = some b := h0.link2 (fun r' hr' => by
        have := (h0.link1 ⟨r', hr'⟩).1; rw [hnx] at this; cases this)
      rw [hnx] at this; cases this; exact ho
  have h1 := h.adj _ _ hadj
  have hpr := hadj.ne h.nodup
  have hng := (h.mem n).1 hadj.mem.2
  have hu1 : ∀ k, Adj q p k → k = n := fun k hk => Adj.uniq_right h.nodup hk hadj
  have ht : t.head? = some n := by
    have h2 := hadj
    rw [hqt, Adj.cons_iff] at h2
    rcases h2 with h2 | h2
    · exact h2.2
    · exfalso
      have := h.nodup; rw [hqt] at this
      exact (List.nodup_cons.1 this).1 h2.mem.1
  have hsub : ∀ k l, Adj t k l → Adj q k l := fun k l hk => by
    rw [hqt]; exact Adj.cons_iff.2 (Or.inr hk)
  have hnp : p ∉ t := by have := h.nodup; rw [hqt] at this; exact (List.nodup_cons.1 this).1
  have hnt : t.Nodup := by have := h.nodup; rw [hqt] at this; exact (List.nodup_cons.1 this).2
  have hlt : t.getLast? = q.getLast? := by
    rw [hqt]
    cases t with
    | nil => simp at ht
    | cons y t => rw [List.getLast?_cons_cons]
  have hent := h.entY p hh (by simp [hpc, Own])
  have h6 := h.r6
  have hw2 : (s.nd n).pc = .w2 ↔ (s.nd n).rf ≠ .zero := by
    have := h1.rf; have := h1.w2; grind
  have hnn : ∀ k, (s.nd k).pc ≠ .r6 n := fun k hk => hadj.not_head h.nodup (h6 k n hk).1
  refine ⟨t, ?_⟩
  split at e
  · rename_i hz
    have hx : Two s s' p { s.nd p with pc := .gone } n { s.nd n with rf := .one } := by
      cases e; exact two_go s _ _ _ _ hpr
    have hb : s'.bad = s.bad := by
      cases e
      have : (s.nd n).pc ≠ .gone := hng.1
      simp [this]
    clear e
    obtain ⟨e1, e2, e3, e3', e4, e5, e6⟩ := hx
    constructor
    · exact hnt
    · rw [hlt, e4]; exact h.lock
    · intro k; have := h.mem k; rw [hqt] at this; simp only [List.mem_cons] at this; grind
    · intro k hk; have : k = n := by rw [ht] at hk; exact (Option.some.inj hk).symm
      subst this
      constructor <;> grind
    · intro k l hkl
      have h0 := h.adj k l (hsub k l hkl)
      have hl1 : l ≠ n := fun e => (e ▸ hkl).not_head hnt ht
      have hl2 : l ≠ p := fun e => hnp (e ▸ hkl.mem.2)
      have hk2 : k ≠ p := fun e => hnp (e ▸ hkl.mem.1)
      have el := e3 l hl2 hl1
      by_cases h5 : k = n
      · subst h5
        clear h1
        constructor <;> grind (splits := 16)
      · exact h0.congr (e3 k hk2 h5) el
    · rw [hlt]; intro k hk; have h0 := h.last k hk
      have hk2 : k ≠ p := fun e => hadj.not_last h.nodup (e ▸ hk)
      constructor <;> grind
    · intro k hk; have : k = n := by rw [ht] at hk; exact (Option.some.inj hk).symm
      subst this; grind
    · intro k m hk; have := h6 k m; grind
    · intro k k' m hk hk'; have := h6 k m; have := h.r6u k k' m; grind
    · have := h.a0; grind
    · have := h.ub; grind
    · have := h.bad; grind
    · have := h.arr; simp_all
    · intro k hk; have : k = n := by rw [ht] at hk; exact (Option.some.inj hk).symm
      subst this; grind
    · intro _; rw [e6, hent]
  · rename_i hz
    have hx : One s s' p { s.nd p with pc := .r6 n } [] := by
      cases e; have := one_go s p (.r6 n)
      refine ⟨this.1, this.2, this.3, rfl, ?_, rfl, this.ent⟩
      have : (s.nd n).pc ≠ .gone := hng.1
      simp [this]
    clear e
    obtain ⟨e1, e2, e2', e3, e4, e5, e6⟩ := hx
    constructor
    · exact hnt
    · rw [hlt, e3]; exact h.lock
    · intro k; have := h.mem k; rw [hqt] at this; simp only [List.mem_cons] at this; grind
    · intro k hk; have : k = n := by rw [ht] at hk; exact (Option.some.inj hk).symm
      subst this
      constructor <;> grind
    · intro k l hkl
      have h0 := h.adj k l (hsub k l hkl)
      have hl2 : l ≠ p := fun e => hnp (e ▸ hkl.mem.2)
      have hk2 : k ≠ p := fun e => hnp (e ▸ hkl.mem.1)
      exact h0.congr (e2 k hk2) (e2 l hl2)
    · rw [hlt]; intro k hk; have h0 := h.last k hk
      have hk2 : k ≠ p := fun e => hadj.not_last h.nodup (e ▸ hk)
      constructor <;> grind
    · intro k hk; have : k = n := by rw [ht] at hk; exact (Option.some.inj hk).symm
      subst this; grind
    · intro k m hk; have := h6 k m; grind
    · intro k k' m hk hk'; have := h6 k m; have := h.r6u k k' m; grind
    · have := h.a0; grind
    · have := h.ub; grind
    · have := h.bad; grind
    · have := h.arr; simp_all
    · intro k hk; have : k = n := by rw [ht] at hk; exact (Option.some.inj hk).symm
      subst this; grind
    · intro _; rw [e6, hent, List.append_nil]

theorem inv_run {s s' : Sys} {q rm : List Nat} {p : Nat} (h : Inv s q rm) (e : run s p = some s') :
    ∃ q' rm', Inv s' q' rm' := by
  cases hpc : (s.nd p).pc with
  | gone => simp [run, hpc] at e
  | hold => simp [run, hpc] at e
  | ub => simp [run, hpc] at e
  | a0 => obtain ⟨q', h'⟩ := step_a0 h hpc e; exact ⟨q', rm, h'⟩
  | a1 r => exact ⟨q, rm, step_a1 h hpc e⟩
  | a2 r => exact ⟨q, rm, step_a2 h hpc e⟩
  | a2e r => exact ⟨q, rm, step_a2e h hpc e⟩
  | w0 => exact ⟨q, rm, step_w0 h hpc e⟩
  | w1 => exact ⟨q, rm, step_w1 h hpc e⟩
  | w2 => exact ⟨q, rm, step_w2 h hpc e⟩
  | r0 => exact ⟨q, rm, step_r0 h hpc e⟩
  | r1 =>
    by_cases hl : s.lock = some p
    · exact ⟨_, _, step_r1_free h hpc hl e⟩
    · exact ⟨q, rm, step_r1 h hpc hl e⟩
  | r2 => exact ⟨q, rm, step_r2 h hpc e⟩
  | r3 => exact ⟨q, rm, step_r3 h hpc e⟩
  | r3w => exact ⟨q, rm, step_r3w h hpc e⟩
  | r4 => exact ⟨q, rm, step_r4 h hpc e⟩
  | r5 n => obtain ⟨q', h'⟩ := step_r5 h hpc e; exact ⟨q', _, h'⟩
  | r6 n => exact ⟨q, rm, step_r6 h hpc e⟩

theorem inv_step {N : Nat} {s s' : Sys} {q rm : List Nat} (h : Inv s q rm) (e : Step N true s s') :
    ∃ q' rm', Inv s' q' rm' := by
  cases e with
  | run p hp e => exact inv_run h e
  | acquire p hp hg hs =>
    exact ⟨q, rm, step_acquire h hg (hs rfl) (one_set s p _) (Or.inl rfl)⟩
  | tryAcquire p hp hg hs => obtain ⟨q', h'⟩ := step_try h hg (hs rfl); exact ⟨q', rm, h'⟩
  | release p hp hg => exact ⟨q, rm, step_release h hg⟩

theorem inv_reach {N : Nat} {s : Sys} (h : Reach N true s) : ∃ q rm, Inv s q rm := by
  induction h with
  | init => exact ⟨[], [], inv_init⟩
  | step _ st ih => obtain ⟨q, rm, ih⟩ := ih; exact inv_step ih st

end Verif.Mcs
