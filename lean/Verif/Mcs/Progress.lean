import Verif.Mcs.Step3

/-! # Progress: no deadlock, and every drain is finite -/
namespace Verif.Mcs

attribute [local grind] InQ Own Waits Unset

attribute [local grind cases] HeadOK AdjOK LastOK

/-- Nodes outside the address space are never used. -/
theorem active_lt {N : Nat} {b : Bool} {s : Sys} (h : Reach N b s) :
    ∀ p, (s.nd p).pc ≠ .gone → p < N := by
  have key : ∀ (s s' : Sys) (p : Nat), run s p = some s' → ∀ k, k ≠ p → (s'.nd k).pc = (s.nd k).pc := by
    intro s s' p e k hk
    simp only [run] at e
    split at e <;> (try split at e) <;> cases e <;>
      simp only [Sys.enter, Sys.go, Sys.set, upd, if_neg hk] <;> (try split) <;> simp_all
  induction h with
  | init => intro p hp; simp [Sys.init] at hp
  | step _ st ih =>
    intro k hk
    cases st with
    | run p hp e =>
      by_cases h2 : k = p
      · exact h2 ▸ hp
      · exact ih k (by rwa [← key _ _ _ e k h2])
    | acquire p hp =>
      by_cases h2 : k = p
      · exact h2 ▸ hp
      · exact ih k (by simpa [callAcquire, Sys.set, upd, h2] using hk)
    | tryAcquire p hp =>
      by_cases h2 : k = p
      · exact h2 ▸ hp
      · refine ih k ?_
        simp only [callTry] at hk
        split at hk <;> simpa [Sys.enter, Sys.go, Sys.set, upd, h2] using hk
    | release p hp =>
      by_cases h2 : k = p
      · exact h2 ▸ hp
      · exact ih k (by simpa [callRelease, Sys.go, Sys.set, upd, h2] using hk)

/-- Steps left for one call. -/
def left : Pc → Nat
  | .gone => 0 | .ub => 0 | .r6 _ => 1 | .r5 _ => 2 | .r4 => 3 | .r3w => 4 | .r3 => 5 | .r2 => 6
  | .r1 => 7 | .r0 => 8 | .hold => 9 | .w2 => 10 | .w1 => 11 | .w0 => 12 | .a2e _ => 13
  | .a2 _ => 14 | .a1 _ => 15 | .a0 => 16

/-- Steps left in all. -/
def rank (N : Nat) (s : Sys) : Nat := ((List.range N).map (fun k => left (s.nd k).pc)).sum

theorem sum_lt {N p : Nat} (hp : p < N) {f g : Nat → Nat} (hlt : g p < f p)
    (heq : ∀ k, k ≠ p → g k = f k) : ((List.range N).map g).sum < ((List.range N).map f).sum := by
  induction N with
  | zero => omega
  | succ N ih =>
    simp only [List.range_succ, List.map_append, List.sum_append, List.map_cons, List.map_nil,
      List.sum_cons, List.sum_nil]
    by_cases h : p = N
    · subst h
      have : (List.range p).map g = (List.range p).map f :=
        List.map_congr_left (fun k hk => heq k (by have := List.mem_range.1 hk; omega))
      rw [this]; omega
    · have := ih (by omega)
      have := heq N (by omega)
      omega

theorem run_left {s s' : Sys} {p : Nat} (e : run s p = some s') :
    left (s'.nd p).pc < left (s.nd p).pc ∧ ∀ k, k ≠ p → (s'.nd k).pc = (s.nd k).pc := by
  constructor
  · simp only [run] at e
    split at e <;> (try split at e) <;> cases e <;>
      simp_all [Sys.enter, Sys.go, Sys.set, upd, left]
  · intro k hk
    simp only [run] at e
    split at e <;> (try split at e) <;> cases e <;>
      simp only [Sys.enter, Sys.go, Sys.set, upd, if_neg hk] <;> (try split) <;> simp_all

/-- A step of a call in progress, or a holder calling `release`: no new call of `acquire`. -/
inductive Drain (N : Nat) : Sys → Sys → Prop where
  | run {s s' : Sys} (p : Nat) (hp : p < N) (h : run s p = some s') : Drain N s s'
  | release {s : Sys} (p : Nat) (hp : p < N) (hg : (s.nd p).pc = .hold) : Drain N s (callRelease s p)

theorem Drain.step {N : Nat} {b : Bool} {s s' : Sys} (h : Drain N s s') : Step N b s s' := by
  cases h with
  | run p hp h => exact .run p hp h
  | release p hp hg => exact .release p hp hg

theorem Drain.rank {N : Nat} {s s' : Sys} (h : Drain N s s') : rank N s' < rank N s := by
  cases h with
  | run p hp h =>
    exact sum_lt hp (run_left h).1 (fun k hk => by rw [(run_left h).2 k hk])
  | release p hp hg =>
    refine sum_lt hp ?_ (fun k hk => ?_)
    · simp [callRelease, Sys.go, Sys.set, upd, hg, left]
    · simp [callRelease, Sys.go, Sys.set, upd, hk]

/-- If nobody holds the lock, some call in progress can take a step. -/
theorem can_run {s : Sys} {q rm : List Nat} (h : Inv s q rm) (hno : ∀ p, (s.nd p).pc ≠ .hold)
    {p : Nat} (hp : (s.nd p).pc ≠ .gone) : ∃ k s', run s k = some s' := by
  -- calls that never block
  have key : ∀ k, (s.nd k).pc ≠ .gone → (s.nd k).pc ≠ .w2 → (s.nd k).pc ≠ .r3w → ∃ s', run s k = some s' := by
    intro k h1 h2 h3
    have := hno k
    have := h.ub k
    simp only [run]
    split <;> (try split) <;> simp_all
  by_cases hq : InQ (s.nd p).pc
  · have hq' := (h.mem p).2 hq
    obtain ⟨hd, hh⟩ : ∃ hd, q.head? = some hd := by
      cases q with
      | nil => simp at hq'
      | cons x t => exact ⟨x, rfl⟩
    have hm := (h.mem hd).1 (List.mem_of_head? hh)
    by_cases h2 : (s.nd hd).pc = .w2
    · rcases ((h.head hd hh).w2 h2).2 with hr | ⟨k, hk⟩
      · exact ⟨hd, by simp [run, h2, hr]⟩
      · exact ⟨k, key k (by simp [hk]) (by simp [hk]) (by simp [hk])⟩
    · by_cases h3 : (s.nd hd).pc = .r3w
      · rcases Adj.of_mem (List.mem_of_head? hh) with ho | ⟨b, ho⟩
        · exact absurd h3 (h.last _ ho).r3w
        · have h0 := h.adj _ _ ho
          have h5 := h0.link5
          by_cases c1 : ∃ r', (s.nd b).pc = .a1 r'
          · obtain ⟨r', c1⟩ := c1
            exact ⟨b, key b (by simp [c1]) (by simp [c1]) (by simp [c1])⟩
          · by_cases c2 : ∃ r', (s.nd b).pc = .a2 r'
            · obtain ⟨r', c2⟩ := c2
              exact ⟨b, key b (by simp [c2]) (by simp [c2]) (by simp [c2])⟩
            · by_cases c3 : ∃ r', (s.nd b).pc = .a2e r'
              · obtain ⟨r', c3⟩ := c3
                exact ⟨b, key b (by simp [c3]) (by simp [c3]) (by simp [c3])⟩
              · have := h5 (fun r e => c1 ⟨r, e⟩) (fun r e => c2 ⟨r, e⟩) (fun r e => c3 ⟨r, e⟩)
                have hne : (s.nd hd).ne = true := by grind
                exact ⟨hd, by simp [run, h3, hne]⟩
      · obtain ⟨s', e⟩ := key hd hm.1 h2 h3
        exact ⟨hd, s', e⟩
  · obtain ⟨s', e⟩ := key p hp (fun e => hq (by simp [e, InQ])) (fun e => hq (by simp [e, InQ]))
    exact ⟨p, s', e⟩

end Verif.Mcs
