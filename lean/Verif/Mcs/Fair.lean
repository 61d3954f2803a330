import Verif.Mcs.Props
import Verif.Common.Fair
/-!
# C55: nobody starves — every call of `acquire` gets the lock, in every fair infinite execution

Events of the program of `Model.lean`, now with their names, so that fairness can be stated: a thread inside `acquire` or
`release` that can move all the time moves at some time, and a holder calls `release` at some time (weak fairness).  New
calls of `acquire` and `try_acquire` may arrive all the time.
-/
namespace Verif.Mcs
open Verif.Fair (Exec Enabled)

/-- what happens -/
inductive Act where
  /-- a step of the call that uses node `p` -/
  | run (p : Nat)
  | acquire (p : Nat)
  | tryAcquire (p : Nat)
  /-- the holder calls `release` -/
  | release (p : Nat)
  deriving DecidableEq

/-- the steps of `Step N true`, labelled -/
inductive LStep (N : Nat) : Act → Sys → Sys → Prop where
  | run {s s' : Sys} (p : Nat) (hp : p < N) (h : run s p = some s') : LStep N (.run p) s s'
  | acquire {s : Sys} (p : Nat) (hp : p < N) (hg : (s.nd p).pc = .gone)
      (hs : ∀ k, (s.nd k).pc ≠ .a2 p) : LStep N (.acquire p) s (callAcquire s p)
  | tryAcquire {s : Sys} (p : Nat) (hp : p < N) (hg : (s.nd p).pc = .gone)
      (hs : ∀ k, (s.nd k).pc ≠ .a2 p) : LStep N (.tryAcquire p) s (callTry s p)
  | release {s : Sys} (p : Nat) (hp : p < N) (hg : (s.nd p).pc = .hold) :
      LStep N (.release p) s (callRelease s p)

theorem LStep.step {N : Nat} {a : Act} {s s' : Sys} (h : LStep N a s s') : Step N true s s' := by
  cases h with
  | run p hp h => exact .run p hp h
  | acquire p hp hg hs => exact .acquire p hp hg (fun _ => hs)
  | tryAcquire p hp hg hs => exact .tryAcquire p hp hg (fun _ => hs)
  | release p hp hg => exact .release p hp hg

theorem step_iff {N : Nat} {s s' : Sys} : Step N true s s' ↔ ∃ a, LStep N a s s' := by
  constructor
  · intro h
    cases h with
    | run p hp h => exact ⟨_, .run p hp h⟩
    | acquire p hp hg hs => exact ⟨_, .acquire p hp hg (hs rfl)⟩
    | tryAcquire p hp hg hs => exact ⟨_, .tryAcquire p hp hg (hs rfl)⟩
    | release p hp hg => exact ⟨_, .release p hp hg⟩
  · rintro ⟨a, h⟩; exact h.step

/-- every thread inside a call is scheduled, and every holder releases -/
def FairRun {N : Nat} (x : Exec (LStep N)) : Prop := ∀ p, x.Weak (.run p) ∧ x.Weak (.release p)

variable {N : Nat} {x : Exec (LStep N)}

theorem run_reach (h0 : Reach N true (x.st 0)) (k : Nat) : Reach N true (x.st k) :=
  Exec.always (n := 0) (P := Reach N true) h0 (fun k e _ hl h => h.step (x.ok k e hl).step) k (Nat.zero_le _)

/-- steps left never grow for a node in use -/
theorem left_step {a : Act} {s s' : Sys} (h : LStep N a s s') (p : Nat) (hp : (s.nd p).pc ≠ .gone) :
    left (s'.nd p).pc ≤ left (s.nd p).pc ∧ ((a = .run p ∨ a = .release p) → left (s'.nd p).pc < left (s.nd p).pc) ∧
    (a ≠ .run p → a ≠ .release p → (s'.nd p).pc = (s.nd p).pc) := by
  cases h with
  | run k hk h =>
    have := run_left h
    by_cases e : p = k
    · subst e; exact ⟨Nat.le_of_lt this.1, fun _ => this.1, fun h => absurd rfl h⟩
    · rw [this.2 p e]
      exact ⟨Nat.le_refl _, fun h => by rcases h with h | h <;> simp_all, fun _ _ => rfl⟩
  | acquire k hk hg =>
    have e : p ≠ k := by rintro rfl; exact hp hg
    simp [callAcquire, Sys.set, upd, e]
  | tryAcquire k hk hg =>
    have e : p ≠ k := by rintro rfl; exact hp hg
    simp only [callTry]
    split <;> simp [Sys.enter, Sys.go, Sys.set, upd, e]
  | release k hk hg =>
    by_cases e : p = k
    · subst e; simp [callRelease, Sys.go, Sys.set, upd, hg, left]
    · simp only [callRelease, Sys.go, Sys.set, upd, if_neg e]
      exact ⟨Nat.le_refl _, fun h => by rcases h with h | h <;> simp_all, fun _ _ => trivial⟩

/-- a node that stays in use stays, from some time on, at one place, and does nothing -/
theorem settle {n p : Nat} (hp : ∀ k, n ≤ k → ((x.st k).nd p).pc ≠ .gone) :
    ∃ m, n ≤ m ∧ (∀ k, m ≤ k → ((x.st k).nd p).pc = ((x.st m).nd p).pc) ∧
      (∀ k, m ≤ k → x.lab k ≠ some (.run p) ∧ x.lab k ≠ some (.release p)) := by
  obtain ⟨m, hm, hs⟩ := Fair.settles (fun k => left ((x.st k).nd p).pc) n (fun k hk => by
    cases hl : x.lab k with
    | none => rw [x.idle k hl]; exact Nat.le_refl _
    | some a => exact (left_step (x.ok k a hl) p (hp k hk)).1)
  have hno : ∀ k, m ≤ k → x.lab k ≠ some (.run p) ∧ x.lab k ≠ some (.release p) := by
    intro k hk
    have h1 := hs k hk
    have h2 := hs (k + 1) (by omega)
    constructor <;> intro hl
    · have := (left_step (x.ok k _ hl) p (hp k (by omega))).2.1 (.inl rfl); omega
    · have := (left_step (x.ok k _ hl) p (hp k (by omega))).2.1 (.inr rfl); omega
  refine ⟨m, hm, ?_, hno⟩
  refine Exec.always (x := x) (n := m) (P := fun s : Sys => (s.nd p).pc = ((x.st m).nd p).pc) rfl ?_
  intro k a hk hl h
  rw [← h]
  obtain ⟨h1, h2⟩ := hno k hk
  exact (left_step (x.ok k a hl) p (hp k (by omega))).2.2 (fun e => h1 (by rw [hl, e])) (fun e => h2 (by rw [hl, e]))

/-- a call that can always take its next step -/
theorem run_some {s : Sys} (hub : ∀ p, (s.nd p).pc ≠ .ub) {k : Nat} (h1 : (s.nd k).pc ≠ .gone) (h0 : (s.nd k).pc ≠ .hold)
    (h2 : (s.nd k).pc = .w2 → (s.nd k).re = true) (h3 : (s.nd k).pc = .r3w → (s.nd k).ne = true) : ∃ s', run s k = some s' := by
  have := hub k
  simp only [run]
  split <;> (try split) <;> simp_all

/-- hence a settled node is at `hold`-free, blocked place -/
theorem settled_blocked (h0 : Reach N true (x.st 0)) (hf : FairRun x) {m p : Nat}
    (hc : ∀ k, m ≤ k → ((x.st k).nd p).pc = ((x.st m).nd p).pc)
    (hno : ∀ k, m ≤ k → x.lab k ≠ some (.run p) ∧ x.lab k ≠ some (.release p)) (hg : ((x.st m).nd p).pc ≠ .gone) :
    (((x.st m).nd p).pc = .w2 ∧ ¬ ∃ j, m ≤ j ∧ ∀ k, j ≤ k → ((x.st k).nd p).re = true) ∨
    (((x.st m).nd p).pc = .r3w ∧ ¬ ∃ j, m ≤ j ∧ ∀ k, j ≤ k → ((x.st k).nd p).ne = true) := by
  have hlt : p < N := active_lt (run_reach h0 m) p hg
  have hub : ∀ k p, ((x.st k).nd p).pc ≠ .ub := fun k => (memory_safe (run_reach h0 k)).2
  by_cases hh : ((x.st m).nd p).pc = .hold
  · exfalso
    obtain ⟨k, hk, hl⟩ := (hf p).2 m (fun k hk => ⟨_, .release p hlt (by rw [hc k hk, hh])⟩)
    exact (hno k hk).2 hl
  have en : ∀ j, m ≤ j → (∀ k, j ≤ k → (((x.st m).nd p).pc = .w2 → ((x.st k).nd p).re = true) ∧
      (((x.st m).nd p).pc = .r3w → ((x.st k).nd p).ne = true)) → False := by
    intro j hj h
    obtain ⟨k, hk, hl⟩ := (hf p).1 j (fun k hk => by
      have hck := hc k (by omega)
      obtain ⟨s', e⟩ := run_some (hub k) (k := p) (by rw [hck]; exact hg) (by rw [hck]; exact hh)
        (fun e => (h k hk).1 (by rw [← hck]; exact e)) (fun e => (h k hk).2 (by rw [← hck]; exact e))
      exact ⟨s', .run p hlt e⟩)
    exact (hno k (by omega)).1 hl
  by_cases h2 : ((x.st m).nd p).pc = .w2
  · left
    refine ⟨h2, ?_⟩
    rintro ⟨j, hj, hr⟩
    exact en j hj (fun k hk => ⟨fun _ => hr k hk, fun e => by rw [h2] at e; simp at e⟩)
  · by_cases h3 : ((x.st m).nd p).pc = .r3w
    · right
      refine ⟨h3, ?_⟩
      rintro ⟨j, hj, hr⟩
      exact en j hj (fun k hk => ⟨fun e => absurd e h2, fun _ => hr k hk⟩)
    · exact (en m (Nat.le_refl _) (fun k hk => ⟨fun e => absurd e h2, fun e => absurd e h3⟩)).elim

/-- events are not reset while their owner sleeps -/
theorem ev_step {a : Act} {s s' : Sys} (h : LStep N a s s') (p : Nat) (ha : a ≠ .run p) (hp : (s.nd p).pc ≠ .gone) :
    ((s.nd p).re = true → (s'.nd p).re = true) ∧ ((s.nd p).ne = true → (s'.nd p).ne = true) := by
  cases h with
  | run k hk e =>
    have hne : p ≠ k := by rintro rfl; exact ha rfl
    simp only [run] at e
    split at e <;> (try split at e) <;> cases e <;>
      simp only [Sys.enter, Sys.go, Sys.set, upd, if_neg hne] <;> (try split) <;> simp_all
  | acquire k hk hg =>
    have e : p ≠ k := by rintro rfl; exact hp hg
    simp [callAcquire, Sys.set, upd, e]
  | tryAcquire k hk hg =>
    have e : p ≠ k := by rintro rfl; exact hp hg
    simp only [callTry]
    split <;> simp [Sys.enter, Sys.go, Sys.set, upd, e]
  | release k hk hg =>
    simp only [callRelease, Sys.go, Sys.set, upd]
    split <;> simp_all

/-- a settled node never sees its event set -/
theorem settled_events (h0 : Reach N true (x.st 0)) (hf : FairRun x) {m p : Nat}
    (hc : ∀ k, m ≤ k → ((x.st k).nd p).pc = ((x.st m).nd p).pc)
    (hno : ∀ k, m ≤ k → x.lab k ≠ some (.run p) ∧ x.lab k ≠ some (.release p)) (hg : ((x.st m).nd p).pc ≠ .gone) :
    (((x.st m).nd p).pc = .w2 ∧ ∀ k, m ≤ k → ((x.st k).nd p).re = false) ∨
    (((x.st m).nd p).pc = .r3w ∧ ∀ k, m ≤ k → ((x.st k).nd p).ne = false) := by
  rcases settled_blocked h0 hf hc hno hg with ⟨h, hn⟩ | ⟨h, hn⟩
  · left
    refine ⟨h, fun k hk => ?_⟩
    cases hr : ((x.st k).nd p).re with
    | false => rfl
    | true =>
      exact absurd ⟨k, hk, Exec.always (x := x) (n := k) (P := fun s : Sys => (s.nd p).re = true) hr (fun j a hj hl h' =>
        (ev_step (x.ok j a hl) p (fun e => (hno j (by omega)).1 (by rw [hl, e])) (by rw [hc j (by omega)]; exact hg)).1 h')⟩ hn
  · right
    refine ⟨h, fun k hk => ?_⟩
    cases hr : ((x.st k).nd p).ne with
    | false => rfl
    | true =>
      exact absurd ⟨k, hk, Exec.always (x := x) (n := k) (P := fun s : Sys => (s.nd p).ne = true) hr (fun j a hj hl h' =>
        (ev_step (x.ok j a hl) p (fun e => (hno j (by omega)).1 (by rw [hl, e])) (by rw [hc j (by omega)]; exact hg)).2 h')⟩ hn

/-- nobody stays in `release` (or holds the lock) for ever -/
theorem owner_ends (h0 : Reach N true (x.st 0)) (hf : FairRun x) {n p : Nat} (ho : ∀ k, n ≤ k → Own ((x.st k).nd p).pc) :
    False := by
  have hng : ∀ k, n ≤ k → ((x.st k).nd p).pc ≠ .gone := fun k hk e => by
    have := ho k hk; rw [e] at this; simp [Own] at this
  obtain ⟨m, hm, hc, hno⟩ := settle (p := p) hng
  rcases settled_events h0 hf hc hno (hng m hm) with ⟨h, _⟩ | ⟨h, hne⟩
  · have := ho m hm; rw [h] at this; simp [Own] at this
  -- somebody is about to link itself behind `p`
  have hb : ∃ b, ((x.st m).nd b).pc = .a1 p ∨ ((x.st m).nd b).pc = .a2 p ∨ ((x.st m).nd b).pc = .a2e p := by
    obtain ⟨q, rm, hi⟩ := inv_reach (run_reach h0 m)
    have hq : p ∈ q := (hi.mem p).2 (by rw [h]; simp [InQ])
    rcases Adj.of_mem hq with hl | ⟨b, hadj⟩
    · exact absurd h (hi.last p hl).r3w
    · have ha := hi.adj _ _ hadj
      refine ⟨b, ?_⟩
      by_cases c1 : ∃ r', ((x.st m).nd b).pc = .a1 r'
      · obtain ⟨r', c1⟩ := c1
        left; rw [c1, ha.pred1 r' c1]
      by_cases c2 : ∃ r', ((x.st m).nd b).pc = .a2 r'
      · obtain ⟨r', c2⟩ := c2
        right; left; rw [c2, ha.pred2 r' c2]
      by_cases c3 : ∃ r', ((x.st m).nd b).pc = .a2e r'
      · obtain ⟨r', c3⟩ := c3
        right; right; rw [c3, ha.pred3 r' c3]
      rcases ha.link5 (fun r e => c1 ⟨r, e⟩) (fun r e => c2 ⟨r, e⟩) (fun r e => c3 ⟨r, e⟩) with ⟨_, h'⟩ | ⟨_, h' | h' | ⟨_, h'⟩⟩
      · exact absurd h h'
      · rw [hne m (Nat.le_refl _)] at h'; simp at h'
      · rw [h] at h'; simp at h'
      · rw [h] at h'; simp at h'
  obtain ⟨b, hb⟩ := hb
  have hbp : b ≠ p := by rintro rfl; rw [h] at hb; simp at hb
  have hstay : ∀ k, m ≤ k → ((x.st k).nd b).pc = .a1 p ∨ ((x.st k).nd b).pc = .a2 p ∨ ((x.st k).nd b).pc = .a2e p := by
    refine Exec.always (x := x) (n := m) (P := fun s : Sys => (s.nd b).pc = .a1 p ∨ (s.nd b).pc = .a2 p ∨ (s.nd b).pc = .a2e p) hb ?_
    intro k a hk hl hb
    have hpk : ((x.st k).nd p).pc = .r3w := by rw [hc k hk, h]
    have hnk := hne (k + 1) (by omega)
    have st := x.ok k a hl
    by_cases ha : a = .run b
    · subst ha
      -- `nextFlag` of `p` holds the event
      have hnf : ((x.st k).nd b).pc = .a2 p → ((x.st k).nd p).nf ≠ .zero := by
        intro e
        obtain ⟨q, rm, hi⟩ := inv_reach (run_reach h0 k)
        have hq : b ∈ q := (hi.mem b).2 (by rw [e]; simp [InQ])
        rcases Adj.of_mem_head hq with hh | ⟨r, hadj⟩
        · have := ((hi.head b hh).a2 p e).1; rw [hpk] at this; simp at this
        · have ha := hi.adj _ _ hadj
          have := ha.pred2 p e; subst this
          rcases ha.link3 ⟨_, e⟩ with h | h
          · exact absurd hpk h.2.1
          · rw [h.1]; simp
      generalize hx : x.st (k + 1) = u at st hnk
      cases st with
      | run _ hlt e =>
        simp only [run] at e
        rcases hb with hb | hb | hb
        · simp only [hb] at e
          cases e; right; left; simp [Sys.go, Sys.set, upd]
        · simp only [hb, if_neg (hnf hb)] at e
          cases e; right; right; simp [Sys.go, Sys.set, upd]
        · simp only [hb] at e
          cases e
          simp [Sys.go, Sys.set, upd, hbp.symm] at hnk
    · have hgb : ((x.st k).nd b).pc ≠ .gone := by rcases hb with h | h | h <;> simp [h]
      have har : a ≠ .release b := by
        rintro rfl
        generalize x.st (k + 1) = u at st
        cases st with
        | release _ _ hg => rcases hb with h | h | h <;> simp [h] at hg
      rw [(left_step st b hgb).2.2 ha har]; exact hb
  have hgb : ∀ k, m ≤ k → ((x.st k).nd b).pc ≠ .gone := fun k hk => by rcases hstay k hk with h | h | h <;> simp [h]
  obtain ⟨m', hm', hc', hno'⟩ := settle (p := b) hgb
  rcases settled_events h0 hf hc' hno' (hgb m' hm') with ⟨h', _⟩ | ⟨h', _⟩ <;>
    (rcases hstay m' hm' with h | h | h <;> rw [h] at h' <;> simp at h')

/-- somebody gets the lock as long as somebody waits -/
theorem grant (h0 : Reach N true (x.st 0)) (hf : FairRun x) {n : Nat} (hw : (x.st n).ent.length < (x.st n).arr.length) :
    ∃ k, n ≤ k ∧ (x.st n).ent.length < (x.st k).ent.length := by
  by_cases hc : ∃ k, n ≤ k ∧ (x.st n).ent.length < (x.st k).ent.length
  · exact hc
  exfalso
  have hent : ∀ k, n ≤ k → (x.st k).ent = (x.st n).ent := by
    refine Exec.always (x := x) (n := n) (P := fun s : Sys => s.ent = (x.st n).ent) rfl ?_
    intro k a hk hl h
    rcases ent_log (x.ok k a hl).step with ⟨h', _⟩ | ⟨p, h', _⟩
    · rw [h', h]
    · exact absurd ⟨k + 1, by omega, by rw [h', h]; simp⟩ hc
  obtain ⟨L, hL⟩ : ∃ L, L = (x.st n).ent.length := ⟨_, rfl⟩
  have hp0 : (x.st n).arr[L]? = some (x.st n).arr[L] := List.getElem?_eq_getElem (by omega)
  generalize (x.st n).arr[L] = p at hp0
  have harr : ∀ k, n ≤ k → (x.st k).arr[L]? = some p := by
    refine Exec.always (x := x) (n := n) (P := fun s : Sys => s.arr[L]? = some p) hp0 ?_
    intro k a hk hl h
    rcases arr_log (x.ok k a hl).step with ⟨h', _⟩ | ⟨q, h', _⟩
    · rw [h', h]
    · rw [h', List.getElem?_append_left]; exact h
      rcases Nat.lt_or_ge L (x.st k).arr.length with h2 | h2
      · exact h2
      · rw [List.getElem?_eq_none h2] at h; simp at h
  -- `p` is the first that waits: the head if nobody owns the lock, otherwise the second
  have key : ∀ k, n ≤ k → Waits ((x.st k).nd p).pc ∧
      (((x.st k).nd p).pc = .w2 → ((x.st k).nd p).re = true ∨ (∃ j, ((x.st k).nd j).pc = .r6 p) ∨
        ∃ h rm, (x.st k).ent = rm ++ [h] ∧ Own ((x.st k).nd h).pc) := by
    intro k hk
    obtain ⟨q, rm, hi⟩ := inv_reach (run_reach h0 k)
    have ha := harr k hk
    rw [hi.arr] at ha
    cases q with
    | nil =>
      have e1 := hi.entN (by simp)
      have : L = rm.length := by rw [hL, ← hent k hk, e1]
      rw [this] at ha; simp at ha
    | cons h t =>
      by_cases ho : Own ((x.st k).nd h).pc
      · have e1 := hi.entY h rfl ho
        have : L = rm.length + 1 := by rw [hL, ← hent k hk, e1]; simp
        rw [this, List.getElem?_append_right (by omega)] at ha
        have : rm.length + 1 - rm.length = 0 + 1 := by omega
        rw [this, List.getElem?_cons_succ] at ha
        have hadj : Adj (h :: t) h p := Adj.cons_iff.2 (.inl ⟨rfl, by rw [List.head?_eq_getElem?]; exact ha⟩)
        exact ⟨(hi.adj _ _ hadj).waits, fun _ => .inr (.inr ⟨h, rm, e1, ho⟩)⟩
      · have e1 := hi.entN (by intro y hy; simp at hy; rw [← hy]; exact ho)
        have : L = rm.length := by rw [hL, ← hent k hk, e1]
        rw [this] at ha; simp at ha
        subst ha
        have hq := (hi.mem h).1 (by simp)
        refine ⟨?_, fun h2 => ?_⟩
        · revert hq ho
          generalize ((x.st k).nd h).pc = c
          intro hq ho
          cases c <;> simp_all [InQ, Own, Waits]
        · rcases ((hi.head h rfl).w2 h2).2 with h3 | h3
          · exact .inl h3
          · exact .inr (.inl h3)
  have hng : ∀ k, n ≤ k → ((x.st k).nd p).pc ≠ .gone := fun k hk e => by
    have := (key k hk).1; rw [e] at this; simp [Waits] at this
  obtain ⟨m, hm, hcst, hno⟩ := settle (p := p) hng
  rcases settled_events h0 hf hcst hno (hng m hm) with ⟨h, hre⟩ | ⟨h, _⟩
  · by_cases hr : ∃ k j, m ≤ k ∧ ((x.st k).nd j).pc = .r6 p
    · obtain ⟨k, j, hk, hj⟩ := hr
      -- `j` sets the event
      have hjp : j ≠ p := by rintro rfl; rw [hcst k hk, h] at hj; simp at hj
      have hstay : ∀ i, k ≤ i → ((x.st i).nd j).pc = .r6 p := by
        refine Exec.always (x := x) (n := k) (P := fun s : Sys => (s.nd j).pc = .r6 p) hj ?_
        intro i a hi hl hj
        have st := x.ok i a hl
        have hri := hre (i + 1) (by omega)
        have hgj : ((x.st i).nd j).pc ≠ .gone := by simp [hj]
        by_cases ha : a = .run j
        · subst ha
          generalize x.st (i + 1) = u at st hri
          cases st with
          | run _ hlt e =>
            simp only [run, hj] at e
            cases e
            simp [Sys.go, Sys.set, upd, hjp.symm] at hri
        · have har : a ≠ .release j := by
            rintro rfl
            generalize x.st (i + 1) = u at st
            cases st with
            | release _ _ hg => simp [hj] at hg
          rw [(left_step st j hgj).2.2 ha har]; exact hj
      obtain ⟨m', hm', hc', hno'⟩ := settle (x := x) (p := j) (n := k) (fun i hi => by simp [hstay i hi])
      rcases settled_events h0 hf hc' hno' (by simp [hstay m' hm']) with ⟨h', _⟩ | ⟨h', _⟩ <;>
        (rw [hstay m' hm'] at h'; simp at h')
    · -- the owner is always the last that got the lock, and never ends
      have ho : ∀ k, m ≤ k → ∃ h rm, (x.st k).ent = rm ++ [h] ∧ Own ((x.st k).nd h).pc := by
        intro k hk
        rcases (key k (by omega)).2 (by rw [hcst k hk, h]) with h1 | ⟨j, h1⟩ | h1
        · rw [hre k hk] at h1; simp at h1
        · exact absurd ⟨k, j, hk, h1⟩ hr
        · exact h1
      obtain ⟨o, rm, e1, _⟩ := ho m (Nat.le_refl _)
      refine owner_ends (n := m) (p := o) h0 hf (fun k hk => ?_)
      obtain ⟨o', rm', e2, h2⟩ := ho k hk
      rw [hent m hm] at e1
      rw [hent k (by omega), e1] at e2
      have := congrArg List.getLast? e2
      simp at this
      rw [this]; exact h2
  · have := (key m hm).1; rw [h] at this; simp [Waits] at this

/-- a call of `acquire` that has not returned uses the node `p` -/
def InAcquire (s : Sys) (p : Nat) : Prop := (s.nd p).pc = .a0 ∨ Waits (s.nd p).pc

/-- the only way out of `acquire` is to hold the lock -/
theorem acquire_step {a : Act} {s s' : Sys} (h : LStep N a s s') {p : Nat} (hp : InAcquire s p) :
    InAcquire s' p ∨ Holds s' p := by
  have hg : (s.nd p).pc ≠ .gone := by
    intro e; rcases hp with h | h
    · rw [e] at h; simp at h
    · rw [e] at h; simp [Waits] at h
  by_cases ha : a = .run p
  · subst ha
    cases h with
    | run _ hlt e =>
      rcases hp with h | ⟨r, h⟩ | ⟨r, h⟩ | ⟨r, h⟩ | h | h | h <;> simp only [run, h] at e <;> (try split at e) <;> cases e <;>
        simp [InAcquire, Holds, Waits, Sys.enter, Sys.go, Sys.set, upd]
  · have har : a ≠ .release p := by
      rintro rfl
      cases h with
      | release _ _ hh =>
        rcases hp with h | h
        · rw [hh] at h; simp at h
        · rw [hh] at h; simp [Waits] at h
    left
    unfold InAcquire
    rw [(left_step h p hg).2.2 ha har]; exact hp

/-- **C55, starvation freedom**: in every fair execution every call of `acquire` returns with the lock held, whatever the
other threads do. -/
theorem acquire_gets_lock (h0 : Reach N true (x.st 0)) (hf : FairRun x) {n p : Nat} (hp : InAcquire (x.st n) p) :
    ∃ k, n ≤ k ∧ Holds (x.st k) p := by
  by_cases hc : ∃ k, n ≤ k ∧ Holds (x.st k) p
  · exact hc
  exfalso
  have hno : ∀ k, n ≤ k → ¬ Holds (x.st k) p := fun k hk h => hc ⟨k, hk, h⟩
  have hstay : ∀ k, n ≤ k → InAcquire (x.st k) p :=
    Exec.always (x := x) (n := n) (P := fun s : Sys => InAcquire s p) hp (fun k a hk hl h => by
      rcases acquire_step (x.ok k a hl) h with h | h
      · exact h
      · exact absurd h (hno _ (by omega)))
  have hg : ∀ k, n ≤ k → ((x.st k).nd p).pc ≠ .gone := fun k hk e => by
    rcases hstay k hk with h | h
    · rw [e] at h; simp at h
    · rw [e] at h; simp [Waits] at h
  obtain ⟨m, hm, hcst, hq⟩ := settle (x := x) (p := p) hg
  have hw2 : ((x.st m).nd p).pc = .w2 := by
    rcases settled_events h0 hf hcst hq (hg m hm) with ⟨h, _⟩ | ⟨h, _⟩
    · exact h
    · rcases hstay m hm with h' | h'
      · rw [h] at h'; simp at h'
      · rw [h] at h'; simp [Waits] at h'
  -- the place of `p` in the order of arrival
  obtain ⟨j, hj, hje⟩ : ∃ j, (x.st m).arr[j]? = some p ∧ (x.st m).ent.length ≤ j := by
    obtain ⟨q, rm, hi⟩ := inv_reach (run_reach h0 m)
    have hpq : p ∈ q := (hi.mem p).2 (by rw [hw2]; simp [InQ])
    obtain ⟨i, hil, hip⟩ := List.getElem_of_mem hpq
    refine ⟨rm.length + i, ?_, ?_⟩
    · rw [hi.arr, List.getElem?_append_right (by omega), Nat.add_sub_cancel_left, List.getElem?_eq_getElem hil, hip]
    · by_cases ho : ∃ h, q.head? = some h ∧ Own ((x.st m).nd h).pc
      · obtain ⟨h, h1, h2⟩ := ho
        rw [hi.entY h h1 h2]
        have : i ≠ 0 := by
          rintro rfl
          rw [List.head?_eq_getElem?, List.getElem?_eq_getElem hil, hip] at h1
          simp at h1; subst h1
          rw [hw2] at h2; simp [Own] at h2
        simp; omega
      · rw [hi.entN (fun h h1 h2 => ho ⟨h, h1, h2⟩)]; omega
  have harr : ∀ k, m ≤ k → (x.st k).arr[j]? = some p := by
    refine Exec.always (x := x) (n := m) (P := fun s : Sys => s.arr[j]? = some p) hj ?_
    intro k a hk hl h
    rcases arr_log (x.ok k a hl).step with ⟨h', _⟩ | ⟨q, h', _⟩
    · rw [h', h]
    · rw [h', List.getElem?_append_left]; exact h
      rcases Nat.lt_or_ge j (x.st k).arr.length with h2 | h2
      · exact h2
      · rw [List.getElem?_eq_none h2] at h; simp at h
  have hlen : ∀ k, m ≤ k → j < (x.st k).arr.length := fun k hk => by
    have h := harr k hk
    rcases Nat.lt_or_ge j (x.st k).arr.length with h2 | h2
    · exact h2
    · rw [List.getElem?_eq_none h2] at h; simp at h
  -- it is never served ...
  have hnot : ∀ k, m ≤ k → (x.st k).ent.length ≤ j := by
    refine Exec.always (x := x) (n := m) (P := fun s : Sys => s.ent.length ≤ j) hje ?_
    intro k a hk hl h
    rcases ent_log (x.ok k a hl).step with ⟨h', _⟩ | ⟨q, h', _, h2, _⟩
    · rw [h']; exact h
    · rw [h']
      by_cases hlt : (x.st k).ent.length < j
      · simp; omega
      · exfalso
        have he : (x.st k).ent.length = j := by omega
        obtain ⟨t, ht⟩ := fifo (run_reach h0 (k + 1))
        have ha := harr (k + 1) (by omega)
        rw [← ht, h', List.append_assoc, List.getElem?_append_right (by omega), he, Nat.sub_self] at ha
        simp at ha
        subst ha
        exact hno (k + 1) (by omega) h2
  -- ... although everybody before it is
  have hall : ∀ L, L ≤ j + 1 → ∃ k, m ≤ k ∧ L ≤ (x.st k).ent.length := by
    intro L
    induction L with
    | zero => exact fun _ => ⟨m, Nat.le_refl _, Nat.zero_le _⟩
    | succ L ih =>
      intro hL
      obtain ⟨k, hk, h⟩ := ih (by omega)
      obtain ⟨k', hk', h'⟩ := grant h0 hf (n := k) (by have := hnot k hk; have := hlen k hk; omega)
      exact ⟨k', by omega, by omega⟩
  obtain ⟨k, hk, h⟩ := hall (j + 1) (Nat.le_refl _)
  have := hnot k hk
  omega

/-- the same from the moment the call starts -/
theorem every_acquire_returns (h0 : Reach N true (x.st 0)) (hf : FairRun x) {n p : Nat} (ha : x.lab n = some (.acquire p)) :
    ∃ k, n < k ∧ Holds (x.st k) p := by
  have st := x.ok n _ ha
  have : InAcquire (x.st (n + 1)) p := by
    generalize x.st (n + 1) = u at st
    cases st with
    | acquire _ _ _ _ => left; simp [callAcquire, Sys.set, upd]
  obtain ⟨k, hk, h⟩ := acquire_gets_lock h0 hf this
  exact ⟨k, by omega, h⟩

/-- **C55**: ... and every call of `release` returns. -/
theorem every_release_returns (h0 : Reach N true (x.st 0)) (hf : FairRun x) {n p : Nat} (ha : x.lab n = some (.release p)) :
    ∃ k, n < k ∧ Idle (x.st k) p := by
  by_cases hc : ∃ k, n < k ∧ Idle (x.st k) p
  · exact hc
  exfalso
  have hg : ∀ k, n + 1 ≤ k → ((x.st k).nd p).pc ≠ .gone := fun k hk h => hc ⟨k, by omega, h⟩
  have hr : ∀ k, n + 1 ≤ k → ¬ InAcquire (x.st k) p := by
    have h1 : ((x.st (n + 1)).nd p).pc = .r0 := by
      have st := x.ok n _ ha
      generalize x.st (n + 1) = u at st
      cases st with
      | release _ _ _ => simp [callRelease, Sys.go, Sys.set, upd]
    have h1' : left ((x.st (n + 1)).nd p).pc ≤ left .r0 := by rw [h1]; exact Nat.le_refl _
    have := Exec.always (x := x) (n := n + 1) (P := fun s : Sys => left (s.nd p).pc ≤ left .r0) h1'
      (fun k a hk hl h => Nat.le_trans (left_step (x.ok k a hl) p (hg k hk)).1 h)
    intro k hk hi
    have h2 := this k hk
    rcases hi with h | ⟨r, h⟩ | ⟨r, h⟩ | ⟨r, h⟩ | h | h | h <;> rw [h] at h2 <;> simp [left] at h2
  obtain ⟨m, hm, hcst, hq⟩ := settle (x := x) (p := p) hg
  rcases settled_events h0 hf hcst hq (hg m hm) with ⟨h, _⟩ | ⟨h, hne⟩
  · exact hr m hm (.inr (by rw [h]; simp [Waits]))
  · exact owner_ends (n := m) (p := p) h0 hf (fun k hk => by rw [hcst k hk, h]; simp [Own])

/-! ### A fair execution -/

/-- carry out an event, with `N` nodes -/
def act (N : Nat) : Act → Sys → Option Sys
  | .run p, s => if p < N then run s p else none
  | .acquire p, s => if p < N ∧ (s.nd p).pc = .gone ∧ (∀ k, k < N → (s.nd k).pc ≠ .a2 p) then some (callAcquire s p) else none
  | .tryAcquire p, s => if p < N ∧ (s.nd p).pc = .gone ∧ (∀ k, k < N → (s.nd k).pc ≠ .a2 p) then some (callTry s p) else none
  | .release p, s => if p < N ∧ (s.nd p).pc = .hold then some (callRelease s p) else none

/-- the steps of reachable states -/
def LStepR (N : Nat) (a : Act) (s s' : Sys) : Prop := Reach N true s → LStep N a s s'

theorem act_sound {N : Nat} (a : Act) (s u : Sys) (h : act N a s = some u) : LStepR N a s u := by
  intro hr
  have hout : ∀ k, ¬ k < N → (s.nd k).pc = .gone := fun k hk => by
    by_cases e : (s.nd k).pc = .gone
    · exact e
    · exact absurd (active_lt hr k e) hk
  have hin : ∀ {p : Nat}, (∀ k, k < N → (s.nd k).pc ≠ .a2 p) → ∀ k, (s.nd k).pc ≠ .a2 p := fun {p} h k => by
    by_cases hk : k < N
    · exact h k hk
    · rw [hout k hk]; simp
  cases a with
  | run p =>
    simp only [act] at h
    split at h
    · exact .run p (by assumption) h
    · cases h
  | acquire p =>
    simp only [act] at h
    split at h
    · rename_i c; cases h; exact .acquire p c.1 c.2.1 (hin c.2.2)
    · cases h
  | tryAcquire p =>
    simp only [act] at h
    split at h
    · rename_i c; cases h; exact .tryAcquire p c.1 c.2.1 (hin c.2.2)
    · cases h
  | release p =>
    simp only [act] at h
    split at h
    · rename_i c; cases h; exact .release p c.1 c.2
    · cases h

/-- node 1 queues behind node 0 and sleeps on its event; node 0 releases the lock and wakes it; node 1 gets the lock and
releases it -/
def demo : List Act :=
  [.acquire 0, .run 0, .acquire 1, .run 1, .run 1, .run 1, .run 1, .run 1, .release 0, .run 0, .run 0, .run 0,
   .run 1, .release 1, .run 1, .run 1]

/-- Not vacuous: a fair execution from the initial state, in which node 1 is asleep in `acquire` at time 8 and holds the lock
at time 13. -/
theorem fair_demo : ∃ x : Exec (LStep 2), Reach 2 true (x.st 0) ∧ FairRun x ∧ x.lab 2 = some (.acquire 1) ∧
    InAcquire (x.st 8) 1 ∧ Holds (x.st 8) 0 ∧ Holds (x.st 13) 1 := by
  obtain ⟨u, hu⟩ : ∃ u, Fair.runs (act 2) demo Sys.init = some u :=
    Option.isSome_iff_exists.1 (by decide +kernel)
  let y := Fair.finite (step := LStepR 2) act_sound hu
  have y0 : y.st 0 = Sys.init := Fair.finite_zero act_sound hu
  have hr : ∀ k, Reach 2 true (y.st k) := fun k =>
    Exec.always (x := y) (n := 0) (P := fun s : Sys => Reach 2 true s) (by rw [y0]; exact .init)
      (fun k e _ hl h => h.step (y.ok k e hl h).step) k (Nat.zero_le _)
  have hend : Reach 2 true u := by
    have := hr demo.length
    rwa [show y.st demo.length = u from Fair.finite_end act_sound hu (Nat.le_refl _)] at this
  have hgone : ∀ p, (u.nd p).pc = .gone := by
    intro p
    by_cases e : (u.nd p).pc = .gone
    · exact e
    · have hp := active_lt hend p e
      have h0 : (Fair.runs (act 2) demo Sys.init).map (fun s => ((s.nd 0).pc, (s.nd 1).pc)) = some (.gone, .gone) := by
        decide +kernel
      rw [hu] at h0
      simp at h0
      have : p = 0 ∨ p = 1 := by omega
      rcases this with rfl | rfl
      · exact h0.1
      · exact h0.2
  let x : Exec (LStep 2) := ⟨y.st, y.lab, fun k e hl => y.ok k e hl (hr k), y.idle⟩
  have hst : ∀ e, (∀ v, ¬ LStep 2 e u v) → x.Strong e := by
    intro e he
    have hy : y.Strong e := Fair.finite_fair act_sound hu (fun v hv => he v (hv hend))
    intro hen
    exact hy (fun n => by
      obtain ⟨k, hk, v, hv⟩ := hen n
      exact ⟨k, hk, v, fun _ => hv⟩)
  refine ⟨x, hr 0, fun p => ⟨(hst _ ?_).weak, (hst _ ?_).weak⟩, rfl, ?_, ?_, ?_⟩
  · intro v hv
    cases hv with
    | run _ _ e => simp [run, hgone p] at e
  · intro v hv
    cases hv with
    | release _ _ e => rw [hgone p] at e; cases e
  · have : ((x.st 8).nd 1).pc = .w2 := by
      show (((Fair.runs (act 2) (demo.take 8) Sys.init).getD Sys.init).nd 1).pc = .w2
      decide +kernel
    right; rw [this]; simp [Waits]
  · show (((Fair.runs (act 2) (demo.take 8) Sys.init).getD Sys.init).nd 0).pc = .hold; decide +kernel
  · show (((Fair.runs (act 2) (demo.take 13) Sys.init).getD Sys.init).nd 1).pc = .hold; decide +kernel

end Verif.Mcs
