import Verif.FixedHandler.Props
import Verif.Spsc.Bound
import Verif.Common.Fair
/-!
# C52: every accepted message is handled or was cleared, in every fair infinite execution

A worker that can move all the time moves at some time (weak fairness); pushes and clears may go on for ever.  A `memcpy` copies
no byte twice (without that, "the worker moves" could mean that it copies one byte for ever).
-/
namespace Verif.FixedHandler
open MsgQueue (Code)
open FixedSpsc (PushCall push pop)
open FixedSpsc.Spec (pushed popped)
open Spec (accepted inProgress messages NoWrap Asleep Handled)
open Spsc (RLoc WLoc RBound WBound RDepth WDepth doneR doneW opCost)
open Verif.Fair (Exec Enabled)
variable {one : BitVec 32}

/-- a step in which no byte is copied twice -/
def LStep (e : Ev) (s t : Sys one) : Prop := Step e s t ∧ (doneR t.conf.r).Nodup ∧ (doneW t.conf.w).Nodup

variable {x : Exec (LStep (one := one))}

theorem run_reach (h0 : Reach (x.st 0)) (k : Nat) : Reach (x.st k) :=
  Exec.always (x := x) (n := 0) (P := fun s : Sys one => Reach s) h0 (fun k e _ hl h => by
    obtain ⟨i, hi, hs⟩ := h
    exact ⟨i, hi, hs.step trivial (x.ok k e hl).1⟩) k (Nat.zero_le _)

theorem pop_depth : RDepth 2 (pop one ()) := by
  unfold pop
  refine .avail fun n => ?_
  unfold FixedSpsc.popAvailK
  split
  · exact .ret _
  unfold FixedSpsc.popRead
  refine .read fun n l => ?_
  unfold FixedSpsc.popK
  exact .ret _

theorem push_depth (c : PushCall one) : WDepth 2 (push one c) := by
  unfold push
  refine .avail fun n => ?_
  unfold FixedSpsc.pushAvailK
  split
  · exact .ret _
  unfold FixedSpsc.pushWrite
  refine .write fun n => ?_
  unfold FixedSpsc.pushK
  exact .ret _

/-- calls in progress have bounds -/
structure Bounded (s : Sys one) : Prop where
  r : (doneR s.conf.r).Nodup
  w : (doneW s.conf.w).Nodup
  rb : s.wrk = .popping → ∃ b, b ≤ 2 * opCost ∧ RBound b s.conf.r
  wb : ∀ m, s.prod = .pushing m → ∃ b, b ≤ 2 * opCost ∧ WBound b s.conf.w

theorem Bounded.init {s : Sys one} (h : Init s) : Bounded s := by
  obtain ⟨⟨_, _, _, _, h1, h2, _⟩, _, _, _, _, h3, h4, _⟩ := h
  refine ⟨by rw [h2]; simp [doneR], by rw [h1]; simp [doneW], by rw [h4]; simp, by rw [h3]; simp⟩

theorem Bounded.step (h1 : 0 < one.toNat) {e : Ev} {s t : Sys one} (h : Bounded s) (hr : Reach t) (st : LStep e s t) : Bounded t := by
  obtain ⟨st, c1, c2⟩ := st
  have hc := FixedSpsc.no_crash h1 (hr.inv h1).reach
  refine ⟨c1, c2, ?_, ?_⟩
  · intro hp
    cases st with
    | push_step _ _ _ er => simp only [er]; exact h.rb hp
    | pop_call e => exact ⟨_, Nat.le_refl _, .run pop_depth⟩
    | pop_step e1 e2 e3 e4 e5 e6 =>
      obtain ⟨b, hb, hB⟩ := h.rb e1
      obtain ⟨b', h1, h2⟩ := hB.step hc.2.2 e3 e4 e6 c1
      exact ⟨b', by omega, h2⟩
    | push_null | push_call | push_full | push_ok | push_count | push_post | clear_load | clear_store | d_flag | d_post | d_join =>
      exact h.rb hp
    | _ => simp at hp
  · intro m hp
    cases st with
    | push_call m => exact ⟨_, Nat.le_refl _, .run (push_depth _)⟩
    | push_step e1 e2 e3 e4 e5 e6 =>
      obtain ⟨b, hb, hB⟩ := h.wb _ e1
      obtain ⟨b', h1, h2⟩ := hB.step ⟨hc.1, hc.2.1⟩ e3 e4 e6 c2
      exact ⟨b', by omega, h2⟩
    | push_full => simp at hp
    | push_ok => simp at hp
    | push_count => simp at hp
    | push_post => simp at hp
    | pop_step _ _ _ er => simp only [er]; exact h.wb _ hp
    | _ => exact h.wb _ hp

theorem run_bounded (h1 : 0 < one.toNat) (h0 : Init (x.st 0)) (k : Nat) : Bounded (x.st k) :=
  Exec.always (x := x) (n := 0) (P := fun s : Sys one => Bounded s) (.init h0)
    (fun k e _ hl h => h.step h1 (run_reach ⟨_, h0, .refl _⟩ _) (x.ok k e hl)) k (Nat.zero_le _)

/-- a worker that is neither asleep nor at its end can move -/
theorem worker_can (h1 : 0 < one.toNat) {s : Sys one} (hs : Reach s) (hb : Bounded s) (ha : ¬ Asleep s) (hg : s.wrk ≠ .gone) :
    Enabled LStep .wrk s := by
  have hI := hs.inv h1
  have keep : ∀ {t}, Step .wrk s t → t.conf = s.conf → Enabled LStep .wrk s := by
    intro t h1 h2
    exact ⟨t, h1, by rw [h2]; exact hb.r, by rw [h2]; exact hb.w⟩
  cases hw : s.wrk with
  | top =>
    refine keep (.wait hw ?_) rfl
    rcases Nat.eq_zero_or_pos s.sem with h | h
    · exact absurd ⟨hw, h⟩ ha
    · exact h
  | check =>
    cases hx : s.exit with
    | true => exact keep (.quit hw hx) rfl
    | false =>
      have := hI.rpc
      rw [hw] at this
      exact ⟨_, .pop_call hw hx this, by simp [doneR], hb.w⟩
  | popping =>
    have hrpc := hI.rpc
    rw [hw] at hrpc
    by_cases hret : ∃ c a, s.conf.r = .run c (.ret a)
    · obtain ⟨c, a, hr⟩ := hret
      cases a with
      | none => exact ⟨_, .pop_none hw hr, by simp [doneR], hb.w⟩
      | some d => exact ⟨_, .pop_some hw hr, by simp [doneR], hb.w⟩
    · obtain ⟨t, h1, h2, h3, h4, h5⟩ := Spsc.reader_can (rsafe h1) hI.reach hrpc (fun c a h => hret ⟨c, a, h⟩) hb.r
      exact ⟨_, .pop_step hw hrpc h1 h2 h3 h4, h5, by simp only [h2]; exact hb.w⟩
  | got d =>
    by_cases hm : s.minTok.toNat ≤ unle (d.take 8)
    · exact keep (.pass hw hm) rfl
    · exact keep (.abandon hw hm) rfl
  | passed k b => exact keep (.enter hw) rfl
  | handle => exact keep (.cb_ok hw) rfl
  | leave => exact keep (.leave hw) rfl
  | gone => exact absurd hw hg

/-- results are only appended to -/
theorem Step.grows {e : Ev} {s t : Sys one} (st : Step e s t) : s.results <+: t.results := by cases st <;> simp

theorem accepted_mono {r r' : List (Msg one × Code)} (h : r <+: r') : accepted r <+: accepted r' := by
  obtain ⟨l, rfl⟩ := h
  simp [accepted]

theorem run_grows {n k : Nat} (hk : n ≤ k) : (x.st n).results <+: (x.st k).results :=
  Exec.always (x := x) (n := n) (P := fun s : Sys one => (x.st n).results <+: s.results)
    (List.prefix_refl _) (fun k e _ hl h => h.trans (x.ok k e hl).1.grows) k hk

/-- number of messages popped -/
def npop (s : Sys one) : Nat := (popped s.conf.rhist).length

/-- steps of the worker for one message -/
def turn : Nat := 2 * opCost + 7

/-- at most `b` steps of the worker are left before it is done with the first `N` messages -/
inductive Left (N : Nat) : Nat → Sys one → Prop where
  | got {s d} : s.wrk = .got d → Left N ((N - npop s) * turn + 2 * opCost + 6) s
  | passed {s k b} : s.wrk = .passed k b → Left N ((N - npop s) * turn + 2 * opCost + 5) s
  | handle {s} : s.wrk = .handle → Left N ((N - npop s) * turn + 2 * opCost + 4) s
  | empty {s} : s.wrk = .popping → SawEmpty s.conf.r → Left N ((N - npop s) * turn + 2 * opCost + 4) s
  | top {s} : s.wrk = .top → Left N ((N - npop s) * turn + 2 * opCost + 3) s
  | check {s} : s.wrk = .check → Left N ((N - npop s) * turn + 2 * opCost + 2) s
  | popping {s b} : s.wrk = .popping → ¬ SawEmpty s.conf.r → b ≤ 2 * opCost → RBound b s.conf.r →
      Left N ((N - npop s) * turn + b + 1) s

/-- the worker is done with the first `N` messages -/
def Done (N : Nat) (s : Sys one) : Prop := N ≤ npop s ∧ (∀ d, s.wrk ≠ .got d) ∧ ∀ k b, s.wrk ≠ .passed k b

theorem Left.some (N : Nat) {s : Sys one} (hb : Bounded s) (ho : ¬ Over s.wrk) : ∃ b, Left N b s := by
  cases hw : s.wrk with
  | top => exact ⟨_, .top hw⟩
  | check => exact ⟨_, .check hw⟩
  | popping =>
    by_cases he : SawEmpty s.conf.r
    · exact ⟨_, .empty hw he⟩
    · obtain ⟨b, h1, h2⟩ := hb.rb hw
      exact ⟨_, .popping hw he h1 h2⟩
  | got d => exact ⟨_, .got hw⟩
  | passed k b => exact ⟨_, .passed hw⟩
  | handle => exact ⟨_, .handle hw⟩
  | leave => exact absurd (.inl hw) ho
  | gone => exact absurd (.inr hw) ho

/-- others do not change the worker -/
theorem Left.other {N b : Nat} {e : Ev} {s t : Sys one} (h : Left N b s) (st : LStep e s t) (he : e = .prod ∨ e = .dst ∨ e = .clr) :
    Left N b t := by
  have key : t.wrk = s.wrk ∧ npop t = npop s ∧ t.conf.r = s.conf.r := by
    obtain ⟨st, _⟩ := st
    cases st with
    | push_step _ _ _ er e5 => exact ⟨rfl, by unfold npop; simp only [e5], er⟩
    | push_null | push_call | push_full | push_ok | push_count | push_post | clear_load | clear_store | d_flag | d_post | d_join =>
      exact ⟨rfl, rfl, rfl⟩
    | _ => simp at he
  obtain ⟨k1, k2, k3⟩ := key
  cases h with
  | top h => rw [← k2]; exact .top (by rw [k1, h])
  | check h => rw [← k2]; exact .check (by rw [k1, h])
  | got h => rw [← k2]; exact .got (by rw [k1, h])
  | passed h => rw [← k2]; exact .passed (by rw [k1, h])
  | handle h => rw [← k2]; exact .handle (by rw [k1, h])
  | empty h h' => rw [← k2]; exact .empty (by rw [k1, h]) (by rw [k3]; exact h')
  | popping h h1 h2 h3 => rw [← k2]; exact .popping (by rw [k1, h]) (by rw [k3]; exact h1) h2 (by rw [k3]; exact h3)

/-- the worker gets nearer to its goal -/
theorem Left.own (h1 : 0 < one.toNat) {N b : Nat} {e : Ev} {s t : Sys one} (h : Left N b s) (hs : Reach s) (st : LStep e s t)
    (hr : Reach t) (he : e = .wrk ∨ e = .spurious) (hN : N ≤ (pushed s.conf.whist).length) (hd : ¬ Done N s) (ho : ¬ Over t.wrk) :
    ∃ b', b' < b ∧ Left N b' t := by
  obtain ⟨st, c1, c2⟩ := st
  have hI := hs.inv h1
  cases st with
  | push_null | push_call | push_step | push_full | push_ok | push_count | push_post | clear_load | clear_store | d_flag | d_post
  | d_join | cb_stop => simp at he
  | wait e | wait_spurious e =>
    cases h with
    | top => exact ⟨_, by simp only [npop]; omega, .check rfl⟩
    | handle h' | check h' | got h' | passed h' | empty h' | popping h' => rw [e] at h'; cases h'
  | quit e => simp [Over] at ho
  | leave e => simp [Over] at ho
  | pop_call e =>
    cases h with
    | check =>
      refine ⟨_, ?_, .popping rfl ?_ (Nat.le_refl _) (.run pop_depth)⟩
      · exact Nat.lt_succ_self _
      · rintro ⟨c, h1⟩; simp [pop] at h1
    | handle h' | top h' | got h' | passed h' | empty h' | popping h' => rw [e] at h'; cases h'
  | @pop_step _ c e1 e2 e3 e4 e5 e6 =>
    have hc := FixedSpsc.no_crash h1 (hr.inv h1).reach
    have hp : npop { s with conf := c } = npop s := by unfold npop; simp only [e6]
    cases h with
    | popping h1' h2 h3 h4 =>
      obtain ⟨b', hb', hB⟩ := h4.step hc.2.2 e3 e4 e6 c1
      refine ⟨_, ?_, .popping e1 ?_ (Nat.le_trans (Nat.le_of_lt hb') h3) hB⟩
      · rw [hp]; omega
      · intro hE
        rcases sawEmpty_step h1 hI.reach e3 hE with h | h
        · exact h2 h
        · exact hd ⟨Nat.le_trans hN h, by rw [e1]; simp, by rw [e1]; simp⟩
    | empty h1 h2 =>
      -- the call has returned: there is no step inside
      exfalso
      obtain ⟨c, h2⟩ := h2
      obtain ⟨b', hb', _⟩ := (show RBound (0 * opCost) s.conf.r by rw [h2]; exact .run (.ret _)).step hc.2.2 e3 e4 e6 c1
      omega
    | handle h' | top h' | got h' | passed h' | check h' => rw [e1] at h'; cases h'
  | pop_none e1 e2 =>
    cases h with
    | empty h1 h2 =>
      refine ⟨_, ?_, .top rfl⟩
      simp only [npop, FixedSpsc.popped_none]; omega
    | popping h1 h2 => exact absurd ⟨_, e2⟩ h2
    | handle h' | top h' | got h' | passed h' | check h' => rw [e1] at h'; cases h'
  | pop_some e1 e2 =>
    cases h with
    | empty h1 h2 => obtain ⟨c, h2⟩ := h2; rw [e2] at h2; simp at h2
    | popping h1' h2 =>
      refine ⟨_, ?_, .got rfl⟩
      have hlt : npop s < N := by
        rcases Nat.lt_or_ge (npop s) N with h | h
        · exact h
        · exact absurd ⟨h, by rw [e1]; simp, by rw [e1]; simp⟩ hd
      simp only [npop, FixedSpsc.popped_some, List.length_append, List.length_singleton] at hlt ⊢
      have : N - (popped s.conf.rhist).length = (N - ((popped s.conf.rhist).length + 1)) + 1 := by omega
      rw [this]
      generalize N - ((popped s.conf.rhist).length + 1) = q
      have := Nat.succ_mul q turn
      simp only [Nat.succ_eq_add_one] at this
      have : turn = 2 * opCost + 7 := rfl
      omega
    | handle h' | top h' | got h' | passed h' | check h' => rw [e1] at h'; cases h'
  | pass e =>
    cases h with
    | got => exact ⟨_, by simp only [npop]; omega, .passed rfl⟩
    | handle h' | check h' | top h' | passed h' | empty h' | popping h' => rw [e] at h'; cases h'
  | abandon e =>
    cases h with
    | got => exact ⟨_, by simp only [npop]; omega, .top rfl⟩
    | handle h' | check h' | top h' | passed h' | empty h' | popping h' => rw [e] at h'; cases h'
  | enter e =>
    cases h with
    | passed => exact ⟨_, by simp only [npop]; omega, .handle rfl⟩
    | handle h' | check h' | top h' | got h' | empty h' | popping h' => rw [e] at h'; cases h'
  | cb_ok e =>
    cases h with
    | handle => exact ⟨_, by simp only [npop]; omega, .top rfl⟩
    | passed h' | check h' | top h' | got h' | empty h' | popping h' => rw [e] at h'; cases h'

theorem done_fair (h1 : 0 < one.toNat) (h0 : Init (x.st 0)) (hf : x.Weak .wrk) (n : Nat) :
    ∃ k, n ≤ k ∧ (Done (accepted (x.st n).results).length (x.st k) ∨ (x.st k).exit = true) := by
  have hR : ∀ k, Reach (x.st k) := run_reach ⟨_, h0, .refl _⟩
  have hB := run_bounded h1 h0
  apply Classical.byContradiction
  intro hc
  have hx : ∀ k, n ≤ k → (x.st k).exit = false := fun k hk => by
    cases h : (x.st k).exit with
    | false => rfl
    | true => exact absurd ⟨k, hk, .inr h⟩ hc
  have hnd : ∀ k, n ≤ k → ¬ Done (accepted (x.st n).results).length (x.st k) := fun k hk h => hc ⟨k, hk, .inl h⟩
  have hpush : ∀ k, n ≤ k → (accepted (x.st n).results).length + (pend (x.st k).prod).length ≤ (pushed (x.st k).conf.whist).length :=
    fun k hk => by
    have hl := congrArg List.length ((hR k).inv h1).acc
    rw [encAll_length, List.length_append] at hl
    have := (accepted_mono (run_grows (x := x) hk)).length_le
    omega
  have hgone : ∀ k, n ≤ k → (x.st k).wrk ≠ .gone := fun k hk h => by
    have := ((hR k).inv h1).fin h; rw [hx k hk] at this; cases this
  have hasl : ∀ k, n ≤ k → ¬ Asleep (x.st k) := fun k hk h => by
    obtain ⟨hw, h0⟩ := h
    have hc := ((hR k).inv h1).cnt (by simp [hw, Over])
    rw [hw, h0] at hc
    simp only [credit] at hc
    have := hpush k hk
    exact hnd k hk ⟨by unfold npop; omega, by rw [hw]; simp, by rw [hw]; simp⟩
  have hen : ∀ k, n ≤ k → Enabled LStep .wrk (x.st k) := fun k hk => worker_can h1 (hR k) (hB k) (hasl k hk) (hgone k hk)
  have hleave : ∀ k, n ≤ k → (x.st k).wrk ≠ .leave := by
    intro k hk hl
    have hall : ∀ j, k ≤ j → (x.st j).wrk = .leave := by
      refine Exec.always (x := x) (n := k) (P := fun s : Sys one => s.wrk = .leave) hl ?_
      intro j e hj hlab h
      have st := (x.ok j e hlab).1
      have hg := hgone (j + 1) (by omega)
      generalize x.st (j + 1) = u at st hg
      generalize x.st j = v at st h
      have := stopped_delivers_nothing (.inl h) (.step (.refl v) trivial st)
      rcases this.2 with h | h
      · exact h
      · exact absurd h hg
    obtain ⟨j, hj, hlab⟩ := hf k (fun j hj => hen j (by omega))
    have st := (x.ok j _ hlab).1
    have h1 := hall j hj
    have h2 := hall (j + 1) (by omega)
    generalize x.st (j + 1) = u at st h2
    generalize x.st j = v at st h1
    cases st with
    | leave => simp at h2
    | wait e | quit e | pop_call e | pop_step e | pop_none e | pop_some e | pass e | abandon e | enter e | cb_ok e =>
      rw [h1] at e; cases e
  have hover : ∀ k, n ≤ k → ¬ Over (x.st k).wrk := fun k hk h => by
    rcases h with h | h
    · exact hleave k hk h
    · exact hgone k hk h
  have step1 : ∀ k b, n ≤ k → Left (accepted (x.st n).results).length b (x.st k) →
      ∃ b', b' ≤ b ∧ Left (accepted (x.st n).results).length b' (x.st (k + 1)) ∧ (x.lab k = some .wrk → b' < b) := by
    intro k b hk hb
    cases hlab : x.lab k with
    | none => exact ⟨b, Nat.le_refl _, by rw [x.idle k hlab]; exact hb, by simp⟩
    | some e =>
      have st := x.ok k e hlab
      have own := fun he => hb.own h1 (hR k) st (hR (k + 1)) he (by have := hpush k hk; omega) (hnd k hk) (hover (k + 1) (by omega))
      cases e with
      | prod => exact ⟨b, Nat.le_refl _, hb.other st (.inl rfl), by simp⟩
      | dst => exact ⟨b, Nat.le_refl _, hb.other st (.inr (.inl rfl)), by simp⟩
      | clr => exact ⟨b, Nat.le_refl _, hb.other st (.inr (.inr rfl)), by simp⟩
      | wrk => obtain ⟨b', h1, h2⟩ := own (.inl rfl); exact ⟨b', by omega, h2, fun _ => h1⟩
      | spurious => obtain ⟨b', h1, h2⟩ := own (.inr rfl); exact ⟨b', by omega, h2, by simp⟩
      | stop =>
        exfalso
        have h1 := hover (k + 1) (by omega)
        have st := st.1
        generalize x.st (k + 1) = u at st h1
        cases st; simp [Over] at h1
  obtain ⟨b, hb⟩ := Left.some _ (hB n) (hover n (Nat.le_refl _))
  exact Exec.descend (x := x) (Left (accepted (x.st n).results).length) step1 (fun k hk => hf k (fun j hj => hen j (by omega))) b hb

/-- **C52** (liveness): in every execution in which the worker is scheduled fairly, every message whose push has returned success
is handed to the callback, or a `clear` has invalidated it, or the handler is stopped (the callback returned non-zero or
`destroy` was called), however many pushes and clears go on meanwhile. -/
theorem handled_fair (h1 : 0 < one.toNat) (h0 : Init (x.st 0)) (hf : x.Weak .wrk) (hn : ∀ k, NoWrap (x.st k)) (n : Nat) :
    ∃ k, n ≤ k ∧ ((∀ j < (accepted (x.st n).results).length, Handled (x.st k) j ∨ j < (x.st k).minTok.toNat) ∨
      (x.st k).exit = true) := by
  obtain ⟨k, hk, hd | hx⟩ := done_fair h1 h0 hf n
  · refine ⟨k, hk, .inl ?_⟩
    intro j hj
    obtain ⟨d1, d2, d3⟩ := hd
    have hI := (run_reach (x := x) ⟨_, h0, .refl _⟩ k).inv h1
    obtain ⟨J, hJ, hS⟩ := hI.seq (hI.guard (hn k))
    have e1 : gotList (x.st k).wrk = [] := by
      cases hw : (x.st k).wrk with
      | got d => exact absurd hw (d2 d)
      | _ => rfl
    have e2 : passedList (x.st k).wrk = [] := by
      cases hw : (x.st k).wrk with
      | passed a b => exact absurd hw (d3 a b)
      | _ => rfl
    rw [e1, List.append_nil] at hJ
    rw [e2, List.append_nil] at hS
    unfold npop at d1
    rw [hJ] at d1
    exact hS.all j (by omega)
  · exact ⟨k, hk, .inr hx⟩

/-- ... and when nothing stops the handler and nothing is cleared, everything accepted is handled. -/
theorem all_handled_fair (h1 : 0 < one.toNat) (h0 : Init (x.st 0)) (hf : x.Weak .wrk) (hn : ∀ k, NoWrap (x.st k))
    (hno : ∀ k e, x.lab k = some e → e ≠ .stop ∧ e ≠ .dst ∧ e ≠ .clr) (n : Nat) :
    ∃ k, n ≤ k ∧ ∀ j < (accepted (x.st n).results).length, Handled (x.st k) j := by
  have hinv : ∀ k, 0 ≤ k → (x.st k).exit = false ∧ (x.st k).dst = .no ∧ (x.st k).wrk ≠ .leave ∧ (x.st k).minTok = 0#64 := by
    refine Exec.always (x := x) (n := 0) (P := fun s : Sys one => s.exit = false ∧ s.dst = .no ∧ s.wrk ≠ .leave ∧ s.minTok = 0#64) ?_ ?_
    · obtain ⟨_, _, a, _, b, _, c, _, d, _⟩ := h0
      exact ⟨a, d, by rw [c]; simp, b⟩
    · intro k e _ hl h
      have st := (x.ok k e hl).1
      have he := hno k e hl
      generalize x.st (k + 1) = u at st
      cases st <;> simp_all
  obtain ⟨k, hk, h⟩ := handled_fair h1 h0 hf hn n
  rcases h with h | h
  · refine ⟨k, hk, fun j hj => ?_⟩
    rcases h j hj with h | h
    · exact h
    · rw [(hinv k (Nat.zero_le _)).2.2.2] at h; simp at h
  · rw [(hinv k (Nat.zero_le _)).1] at h; cases h

/-- a thread inside `fixed_msg_queue_handler_push` that can move all the time moves -/
def PushFair (x : Exec (LStep (one := one))) : Prop :=
  ∀ n, (∀ k, n ≤ k → (x.st k).prod ≠ .idle ∧ Enabled LStep .prod (x.st k)) → ∃ k, n ≤ k ∧ x.lab k = some .prod

/-- **C52** (liveness): every push returns, when the pushing thread is scheduled fairly. -/
theorem push_returns_fair (h1 : 0 < one.toNat) (h0 : Init (x.st 0)) (hf : PushFair x) {n : Nat} {m : Msg one}
    (hp : (x.st n).prod = .pushing m) : ∃ k, n ≤ k ∧ (x.st k).prod = .idle := by
  have hR : ∀ k, Reach (x.st k) := run_reach ⟨_, h0, .refl _⟩
  have hB := run_bounded h1 h0
  apply Classical.byContradiction
  intro hc
  have hni : ∀ k, n ≤ k → (x.st k).prod ≠ .idle := fun k hk h => hc ⟨k, hk, h⟩
  -- the pushing thread can always move
  have hen : ∀ k, n ≤ k → Enabled LStep .prod (x.st k) := by
    intro k hk
    have hI := (hR k).inv h1
    cases hpk : (x.st k).prod with
    | idle => exact absurd hpk (hni k hk)
    | posting m => exact ⟨_, .push_post hpk, (hB k).r, (hB k).w⟩
    | counting m => exact ⟨_, .push_count hpk, (hB k).r, (hB k).w⟩
    | pushing m =>
      have hw := hI.wpc
      rw [hpk] at hw
      by_cases hret : ∃ c a, (x.st k).conf.w = .run c (.ret a)
      · obtain ⟨c, a, hr⟩ := hret
        cases a with
        | true => exact ⟨_, .push_ok hpk hr, (hB k).r, by simp [doneW]⟩
        | false => exact ⟨_, .push_full hpk hr, (hB k).r, by simp [doneW]⟩
      · obtain ⟨t, h1, h2, h3, h4, h5⟩ := Spsc.writer_can
          (fun t ht => ⟨(FixedSpsc.no_crash h1 ht).1, (FixedSpsc.no_crash h1 ht).2.1⟩) hI.reach hw.2 (fun c a h => hret ⟨c, a, h⟩) (hB k).w
        exact ⟨_, .push_step hpk hw.2 h1 h2 h3 h4, by simp only [h2]; exact (hB k).r, h5⟩
  -- steps left
  let L : Nat → Sys one → Prop := fun b s => (∃ m b', s.prod = .pushing m ∧ WBound b' s.conf.w ∧ b = b' + 2) ∨
    (∃ m, s.prod = .counting m ∧ b = 1) ∨ (∃ m, s.prod = .posting m ∧ b = 0)
  have step1 : ∀ k b, n ≤ k → L b (x.st k) → ∃ b', b' ≤ b ∧ L b' (x.st (k + 1)) ∧ (x.lab k = some .prod → b' < b) := by
    intro k b hk hb
    cases hlab : x.lab k with
    | none => exact ⟨b, Nat.le_refl _, by rw [x.idle k hlab]; exact hb, by simp⟩
    | some e =>
      have st := x.ok k e hlab
      have hcr := FixedSpsc.no_crash h1 ((hR (k + 1)).inv h1).reach
      have hne := hni (k + 1) (by omega)
      obtain ⟨st, _, c2⟩ := st
      by_cases he : e = .prod
      · subst he
        generalize x.st (k + 1) = u at st hcr hne c2
        cases st with
        | push_null m h => exact absurd h (hni k hk)
        | push_call m h => exact absurd h (hni k hk)
        | push_step e1 e2 e3 e4 e5 e6 =>
          rcases hb with ⟨m, b', h1, h2, rfl⟩ | ⟨m, h1, rfl⟩ | ⟨m, h1, rfl⟩
          · obtain ⟨b'', h3, h4⟩ := h2.step ⟨hcr.1, hcr.2.1⟩ e3 e4 e6 c2
            exact ⟨b'' + 2, by omega, .inl ⟨_, b'', e1, h4, rfl⟩, fun _ => by omega⟩
          · rw [e1] at h1; cases h1
          · rw [e1] at h1; cases h1
        | push_full e1 => simp at hne
        | push_ok e1 e2 =>
          rcases hb with ⟨m, b', h1, h2, rfl⟩ | ⟨m, h1, rfl⟩ | ⟨m, h1, rfl⟩
          · exact ⟨1, by omega, .inr (.inl ⟨_, rfl, rfl⟩), fun _ => by omega⟩
          · rw [e1] at h1; cases h1
          · rw [e1] at h1; cases h1
        | push_count e1 =>
          rcases hb with ⟨m, b', h1, h2, rfl⟩ | ⟨m, h1, rfl⟩ | ⟨m, h1, rfl⟩
          · rw [e1] at h1; cases h1
          · exact ⟨0, by omega, .inr (.inr ⟨_, rfl, rfl⟩), fun _ => by omega⟩
          · rw [e1] at h1; cases h1
        | push_post e1 => simp at hne
      · have key : (x.st (k + 1)).prod = (x.st k).prod ∧ (x.st (k + 1)).conf.w = (x.st k).conf.w := by
          generalize x.st (k + 1) = u at st
          cases st with
          | push_null | push_call | push_step | push_full | push_ok | push_count | push_post => exact absurd rfl he
          | pop_step _ _ _ e4 => exact ⟨rfl, e4⟩
          | _ => exact ⟨rfl, rfl⟩
        refine ⟨b, Nat.le_refl _, ?_, fun h => absurd (by simpa using h) he⟩
        simp only [L, key.1, key.2]; exact hb
  obtain ⟨b, hb1, hb⟩ := (hB n).wb m hp
  exact Exec.descend (x := x) L step1 (fun k hk => hf k (fun j hj => ⟨hni j (by omega), hen j (by omega)⟩)) _ (.inl ⟨m, b, hp, hb, rfl⟩)

/-- steps left to the end of the loop once `flag2exit` is set -/
inductive Ends : Nat → Sys one → Prop where
  | top {s} : s.wrk = .top → Ends 3 s
  | check {s} : s.wrk = .check → Ends 2 s
  | leave {s} : s.wrk = .leave → Ends 1 s
  | handle {s} : s.wrk = .handle → Ends 4 s
  | passed {s k b} : s.wrk = .passed k b → Ends 5 s
  | got {s d} : s.wrk = .got d → Ends 6 s
  | popping {s b} : s.wrk = .popping → RBound b s.conf.r → Ends (b + 7) s

/-- **C52** (liveness): after `destroy` has posted the semaphore, a fairly scheduled worker comes to its end, so that the join
returns. -/
theorem destroy_joins_fair (h1 : 0 < one.toNat) (h0 : Init (x.st 0)) (hf : x.Weak .wrk) {n : Nat} (hd : (x.st n).dst = .posted) :
    ∃ k, n ≤ k ∧ (x.st k).wrk = .gone := by
  have hR : ∀ k, Reach (x.st k) := run_reach ⟨_, h0, .refl _⟩
  have hB := run_bounded h1 h0
  apply Classical.byContradiction
  intro hc
  have hg : ∀ k, n ≤ k → (x.st k).wrk ≠ .gone := fun k hk h => hc ⟨k, hk, h⟩
  have hdst : ∀ k, n ≤ k → (x.st k).dst = .posted := by
    refine Exec.always (x := x) (n := n) (P := fun s : Sys one => s.dst = .posted) hd ?_
    intro k e hk hl h
    have st := (x.ok k e hl).1
    have hgk := hg k hk
    generalize x.st (k + 1) = u at st
    generalize x.st k = v at st h hgk
    cases st with
    | d_flag e => rw [h] at e; cases e
    | d_post e => exact absurd (h.symm.trans e) (by simp)
    | d_join _ e => exact absurd e hgk
    | push_null _ _ e => rw [h] at e; cases e
    | push_call _ _ e => rw [h] at e; cases e
    | _ => exact h
  have hx : ∀ k, n ≤ k → (x.st k).exit = true := fun k hk => (((hR k).inv h1).dst (by rw [hdst k hk]; simp)).1
  have hasl : ∀ k, n ≤ k → ¬ Asleep (x.st k) := by
    rintro k hk ⟨h1', h2⟩
    rcases ((hR k).inv h1).tok (hdst k hk) with h | h | h
    · simp [h1', Over] at h
    · simp [h1'] at h
    · omega
  have hen : ∀ k, n ≤ k → Enabled LStep .wrk (x.st k) := fun k hk => worker_can h1 (hR k) (hB k) (hasl k hk) (hg k hk)
  have hsome : ∃ b, Ends b (x.st n) := by
    cases hw : (x.st n).wrk with
    | top => exact ⟨_, .top hw⟩
    | check => exact ⟨_, .check hw⟩
    | popping => obtain ⟨b, _, h2⟩ := (hB n).rb hw; exact ⟨_, .popping hw h2⟩
    | got d => exact ⟨_, .got hw⟩
    | passed k b => exact ⟨_, .passed hw⟩
    | handle => exact ⟨_, .handle hw⟩
    | leave => exact ⟨_, .leave hw⟩
    | gone => exact absurd hw (hg n (Nat.le_refl _))
  obtain ⟨b, hb⟩ := hsome
  refine Exec.descend (x := x) Ends (e := .wrk) ?_ (fun k hk => hf k (fun j hj => hen j (by omega))) b hb
  intro k b hk hb
  cases hlab : x.lab k with
  | none => exact ⟨b, Nat.le_refl _, by rw [x.idle k hlab]; exact hb, by simp⟩
  | some e =>
    obtain ⟨st, c1, c2⟩ := x.ok k e hlab
    have hcr := FixedSpsc.no_crash h1 ((hR (k + 1)).inv h1).reach
    have hgk := hg (k + 1) (by omega)
    have hxk := hx k hk
    suffices H : (e ≠ .prod → e ≠ .dst → e ≠ .clr → ∃ b', b' < b ∧ Ends b' (x.st (k + 1))) ∧
        ((e = .prod ∨ e = .dst ∨ e = .clr) → Ends b (x.st (k + 1))) by
      by_cases he : e = .prod ∨ e = .dst ∨ e = .clr
      · exact ⟨b, Nat.le_refl _, H.2 he, fun h => by cases h; simp at he⟩
      · obtain ⟨b', h1, h2⟩ := H.1 (fun h => he (.inl h)) (fun h => he (.inr (.inl h))) (fun h => he (.inr (.inr h)))
        exact ⟨b', by omega, h2, fun _ => h1⟩
    constructor
    · intro he1 he2 he3
      generalize x.st (k + 1) = u at st c1 c2 hcr hgk
      generalize x.st k = v at st hb hxk
      cases st with
      | push_null | push_call | push_step | push_full | push_ok | push_count | push_post => exact absurd rfl he1
      | d_flag | d_post | d_join => exact absurd rfl he2
      | clear_load | clear_store => exact absurd rfl he3
      | wait e | wait_spurious e =>
        cases hb with
        | top => exact ⟨2, by omega, .check rfl⟩
        | check h | handle h | popping h | leave h | got h | passed h => rw [e] at h; cases h
      | quit e =>
        cases hb with
        | check => exact ⟨1, by omega, .leave rfl⟩
        | top h | handle h | popping h | leave h | got h | passed h => rw [e] at h; cases h
      | pop_call _ e => rw [hxk] at e; cases e
      | pop_step e1 e2 e3 e4 e5 e6 =>
        cases hb with
        | popping _ h =>
          obtain ⟨b', h1, h2⟩ := h.step hcr.2.2 e3 e4 e6 c1
          exact ⟨b' + 7, by omega, .popping e1 h2⟩
        | top h | handle h | check h | leave h | got h | passed h => rw [e1] at h; cases h
      | pop_some e =>
        cases hb with
        | popping _ h => exact ⟨6, by omega, .got rfl⟩
        | top h | handle h | check h | leave h | got h | passed h => rw [e] at h; cases h
      | pop_none e =>
        cases hb with
        | popping _ h => exact ⟨3, by omega, .top rfl⟩
        | top h | handle h | check h | leave h | got h | passed h => rw [e] at h; cases h
      | pass e =>
        cases hb with
        | got _ => exact ⟨5, by omega, .passed rfl⟩
        | top h | handle h | check h | leave h | popping h | passed h => rw [e] at h; cases h
      | abandon e =>
        cases hb with
        | got _ => exact ⟨3, by omega, .top rfl⟩
        | top h | handle h | check h | leave h | popping h | passed h => rw [e] at h; cases h
      | enter e =>
        cases hb with
        | passed _ => exact ⟨4, by omega, .handle rfl⟩
        | top h | handle h | check h | leave h | popping h | got h => rw [e] at h; cases h
      | cb_ok e =>
        cases hb with
        | handle _ => exact ⟨3, by omega, .top rfl⟩
        | top h | popping h | check h | leave h | got h | passed h => rw [e] at h; cases h
      | cb_stop e =>
        cases hb with
        | handle _ => exact ⟨1, by omega, .leave rfl⟩
        | top h | popping h | check h | leave h | got h | passed h => rw [e] at h; cases h
      | leave e => simp at hgk
    · intro he
      have key : (x.st (k + 1)).wrk = (x.st k).wrk ∧ (x.st (k + 1)).conf.r = (x.st k).conf.r := by
        generalize x.st (k + 1) = u at st
        cases st with
        | push_step _ _ _ er => exact ⟨rfl, er⟩
        | push_null | push_call | push_full | push_ok | push_count | push_post | d_flag | d_post | d_join | clear_load
        | clear_store => exact ⟨rfl, rfl⟩
        | _ => simp at he
      cases hb with
      | top h => exact .top (by rw [key.1, h])
      | check h => exact .check (by rw [key.1, h])
      | leave h => exact .leave (by rw [key.1, h])
      | handle h => exact .handle (by rw [key.1, h])
      | got h => exact .got (by rw [key.1, h])
      | passed h => exact .passed (by rw [key.1, h])
      | popping h h' => exact .popping (by rw [key.1, h]) (by rw [key.2]; exact h')

/-! ### A fair execution -/

/-- carry out an act of the demonstration, if no byte is copied twice -/
def act (a : Act one) (s : Sys one) : Option (Sys one) :=
  (exec s a).bind fun t => if (doneR t.conf.r).Nodup ∧ (doneW t.conf.w).Nodup then some t else none

theorem act_sound (a : Act one) (s u : Sys one) (h : act a s = some u) : LStep (evOf a) s u := by
  simp only [act, Option.bind_eq_some_iff] at h
  obtain ⟨t, h1, h2⟩ := h
  split at h2
  · next hc => cases h2; exact ⟨exec_sound h1, hc⟩
  · cases h2

def demo : List (Act 9#32) := demoPush 7 ++ demoPop ++ [.enter, .cb]

/-- Not vacuous: a fair execution of a handler from its creation, in which one message is accepted and handled. -/
theorem fair_demo : ∃ x : Exec (LStep (one := 9#32)), Init (x.st 0) ∧ x.Weak .wrk ∧ PushFair x ∧ (∀ k, NoWrap (x.st k)) ∧
    (∀ k e, x.lab k = some e → e ≠ .stop ∧ e ≠ .dst ∧ e ≠ .clr) ∧
    ∃ n k, n < k ∧ accepted (x.st n).results = [[7]] ∧ (x.st n).delivered = [] ∧ (x.st k).delivered = [(0, [7])] := by
  have h : (Fair.runs act demo demoInit).map (fun s => (s.wrk, s.sem, match s.prod with | .idle => true | _ => false)) =
      some (.top, 0, true) := by decide +kernel
  obtain ⟨u, hu, he⟩ := Option.map_eq_some_iff.1 h
  simp only [_root_.Prod.mk.injEq] at he
  obtain ⟨x, x0, xend, xlab, xst, xf⟩ := Fair.exists_finite evOf act act_sound hu
  have hsmall : ∀ k ≤ demo.length, ((Fair.runs act (demo.take k) demoInit).map (fun s => (messages s).length)).getD 0 ≤ 1 := by
    decide +kernel
  have hnw : ∀ k ≤ demo.length, NoWrap (x.st k) := by
    intro k hk
    have h1 := hsmall k hk
    rw [xst]
    unfold NoWrap
    cases hv : Fair.runs act (demo.take k) demoInit with
    | none => simp only [Option.getD_none]; decide +kernel
    | some v => rw [hv] at h1; simp only [Option.map_some, Option.getD_some] at h1 ⊢; omega
  refine ⟨x, by rw [x0]; exact demoInit_init, (xf _ ?_).weak, ?_, ?_, ?_, (demoPush 7).length, demo.length, by decide, ?_, ?_, ?_⟩
  · rintro v ⟨hv, _⟩
    cases hv with
    | wait e h2 => rw [he.2.1] at h2; omega
    | quit e | pop_call e | pop_step e | pop_none e | pop_some e | pass e | abandon e | enter e | cb_ok e | leave e =>
      rw [he.1] at e; cases e
  · intro n hn
    have := (hn (n + demo.length) (by omega)).1
    rw [xend _ (by omega)] at this
    have h3 := he.2.2
    split at h3
    · next e => exact absurd e this
    · exact absurd h3 Bool.false_ne_true
  · intro k
    rcases Nat.le_total k demo.length with hk | hk
    · exact hnw k hk
    · rw [xend k hk, ← xend demo.length (Nat.le_refl _)]; exact hnw _ (Nat.le_refl _)
  · intro k e hl
    rw [xlab] at hl
    obtain ⟨a, ha, rfl⟩ := Option.map_eq_some_iff.1 hl
    have ha := List.mem_of_getElem? ha
    have hall : ∀ e ∈ demo.map evOf, e ≠ Ev.stop ∧ e ≠ Ev.dst ∧ e ≠ Ev.clr := by decide +kernel
    exact hall _ (List.mem_map_of_mem ha)
  · rw [xst]
    have : ((Fair.runs act (demo.take (demoPush 7).length) demoInit).map (fun s => accepted s.results)) = some [[7]] := by
      decide +kernel
    obtain ⟨v, hv, e⟩ := Option.map_eq_some_iff.1 this
    rw [hv]; exact e
  · rw [xst]
    have : ((Fair.runs act (demo.take (demoPush 7).length) demoInit).map (fun s => s.delivered)) = some [] := by
      decide +kernel
    obtain ⟨v, hv, e⟩ := Option.map_eq_some_iff.1 this
    rw [hv]; exact e
  · rw [xend _ (Nat.le_refl _)]
    have : ((Fair.runs act demo demoInit).map (fun s => s.delivered)) = some [(0, [7])] := by
      decide +kernel
    rw [hu] at this; simpa using this

end Verif.FixedHandler
