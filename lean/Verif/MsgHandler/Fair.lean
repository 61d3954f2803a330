import Verif.MsgHandler.Props
import Verif.Spsc.Bound
import Verif.Common.Fair
/-!
# C51: every accepted message is handled, in every fair infinite execution

A worker that can move all the time moves at some time (weak fairness); pushes may go on for ever.  A `memcpy` copies no byte
twice (without that, "the worker moves" could mean that it copies one byte for ever).
-/
namespace Verif.MsgHandler
open MsgQueue (Code)
open MsgSpsc (PushCall PopRes push pop)
open MsgSpsc.Spec (pushed popped)
open Spec (content accepted inProgress Asleep)
open Spsc (RLoc WLoc RBound WBound RDepth WDepth doneR doneW opCost)
open Verif.Fair (Exec Enabled)

/-- a step in which no byte is copied twice -/
def LStep (e : Ev) (s t : Sys) : Prop := Step e s t ∧ (doneR t.conf.r).Nodup ∧ (doneW t.conf.w).Nodup

variable {x : Exec LStep}

theorem run_reach (h0 : Reach (x.st 0)) (k : Nat) : Reach (x.st k) :=
  Exec.always (x := x) (n := 0) (P := fun s : Sys => Reach s) h0 (fun k e _ hl h => by
    obtain ⟨i, hi, hs⟩ := h
    exact ⟨i, hi, hs.step trivial (x.ok k e hl).1⟩) k (Nat.zero_le _)

theorem run_sized (hz : Sized (x.st 0)) (k : Nat) : Sized (x.st k) :=
  Exec.always (x := x) (n := 0) (P := fun s : Sys => Sized s) hz (fun k e _ hl h => by
    have := (x.ok k e hl).1.size
    unfold Sized at *; rw [this]; exact h) k (Nat.zero_le _)

/-- the copies in progress -/
def Clean (s : Sys) : Prop := (doneR s.conf.r).Nodup ∧ (doneW s.conf.w).Nodup

theorem run_clean (h : Clean (x.st 0)) (k : Nat) : Clean (x.st k) :=
  Exec.always (x := x) (n := 0) (P := fun s : Sys => Clean s) h (fun k e _ hl _ => (x.ok k e hl).2) k (Nat.zero_le _)

theorem pop_depth (room : BitVec 32) : RDepth 4 (pop room) := by
  unfold pop
  refine .avail fun n => ?_
  unfold MsgSpsc.popAvailK
  split
  · exact .ret _
  unfold MsgSpsc.popPeek
  refine .read fun n l => ?_
  unfold MsgSpsc.popPeekK
  split
  · exact .abort
  split
  · exact .abort
  split
  · exact .ret _
  split
  · exact .ret _
  unfold MsgSpsc.popDiscard
  refine .read fun n l => ?_
  unfold MsgSpsc.popDiscardK
  split
  · exact .abort
  unfold MsgSpsc.popBody
  refine .read fun n l => ?_
  unfold MsgSpsc.popBodyK
  split
  · exact .abort
  · exact .ret _

theorem push_depth (c : PushCall) : WDepth 3 (push c) := by
  unfold push
  split
  · exact .ret _
  refine .avail fun n => ?_
  unfold MsgSpsc.pushAvailK
  split
  · exact .ret _
  unfold MsgSpsc.pushHdr
  refine .write fun n => ?_
  unfold MsgSpsc.pushHdrK
  split
  · exact .abort
  unfold MsgSpsc.pushBody
  refine .write fun n => ?_
  unfold MsgSpsc.pushBodyK
  split
  · exact .abort
  · exact .ret _

/-- calls in progress have bounds -/
structure Bounded (s : Sys) : Prop where
  r : (doneR s.conf.r).Nodup
  w : (doneW s.conf.w).Nodup
  rb : s.wrk = .popping → ∃ b, b ≤ 4 * opCost ∧ RBound b s.conf.r
  wb : ∀ m, s.prod = .pushing m → ∃ b, b ≤ 3 * opCost ∧ WBound b s.conf.w

theorem Bounded.init {s : Sys} (h : Init s) : Bounded s := by
  obtain ⟨⟨_, _, _, _, h1, h2, _⟩, _, _, h3, h4, _⟩ := h
  refine ⟨by rw [h2]; simp [doneR], by rw [h1]; simp [doneW], by rw [h4]; simp, by rw [h3]; simp⟩

theorem Bounded.step {e : Ev} {s t : Sys} (h : Bounded s) (hr : Reach t) (st : LStep e s t) : Bounded t := by
  obtain ⟨st, c1, c2⟩ := st
  have hc := MsgSpsc.no_crash hr.inv.reach
  refine ⟨c1, c2, ?_, ?_⟩
  · intro hp
    cases st with
    | push_null m => exact h.rb hp
    | push_call m => exact h.rb hp
    | push_step _ _ _ er => simp only [er]; exact h.rb hp
    | push_fail => exact h.rb hp
    | push_ok => exact h.rb hp
    | push_post => exact h.rb hp
    | boot e => simp at hp
    | boot_oom e => simp at hp
    | wait e => simp at hp
    | wait_spurious e => simp at hp
    | nowait e => simp at hp
    | quit e => simp at hp
    | pop_call e => exact ⟨_, Nat.le_refl _, .run (pop_depth _)⟩
    | pop_step e1 e2 e3 e4 e5 e6 =>
      obtain ⟨b, hb, hB⟩ := h.rb e1
      obtain ⟨b', h1, h2⟩ := hB.step hc.2.2 e3 e4 e6 c1
      exact ⟨b', by omega, h2⟩
    | pop_ok e => simp at hp
    | pop_grow e => simp at hp
    | pop_grow_oom e => simp at hp
    | pop_grow_ub e => simp at hp
    | pop_retry e => simp at hp
    | cb_ok e => simp at hp
    | cb_stop e => simp at hp
    | leave e => simp at hp
    | d_flag => exact h.rb hp
    | d_post => exact h.rb hp
    | d_join => exact h.rb hp
  · intro m hp
    cases st with
    | push_null m => exact h.wb _ hp
    | push_call m => exact ⟨_, Nat.le_refl _, .run (push_depth _)⟩
    | push_step e1 e2 e3 e4 e5 e6 =>
      obtain ⟨b, hb, hB⟩ := h.wb _ e1
      obtain ⟨b', h1, h2⟩ := hB.step ⟨hc.1, hc.2.1⟩ e3 e4 e6 c2
      exact ⟨b', by omega, h2⟩
    | push_fail => simp at hp
    | push_ok => simp at hp
    | push_post => simp at hp
    | pop_step _ _ _ er => simp only [er]; exact h.wb _ hp
    | _ => exact h.wb _ hp

theorem run_bounded (h0 : Init (x.st 0)) (k : Nat) : Bounded (x.st k) :=
  Exec.always (x := x) (n := 0) (P := fun s : Sys => Bounded s) (.init h0)
    (fun k e _ hl h => h.step (run_reach ⟨_, h0, .refl _⟩ _) (x.ok k e hl)) k (Nat.zero_le _)

/-- one turn of the loop -/
def turn : Nat := 4 * opCost + 4
/-- all turns in which the buffer grows -/
def turns : Nat := (2 ^ 32 + 1) * turn

/-- at most `b` steps of the worker are left before it delivers a message that is pending -/
inductive Left : Nat → Sys → Prop where
  | start {s} : s.wrk = .start → Left (turns + 1) s
  | top {s last} : s.wrk = .top last → Left ((2 ^ 32 - s.buf) * turn + 4 * opCost + 3) s
  | check {s} : s.wrk = .check → Left ((2 ^ 32 - s.buf) * turn + 4 * opCost + 2) s
  | handle {s m} : s.wrk = .handle m → Left (turns + 1) s
  | empty {s} : s.wrk = .popping → SawEmpty s.conf.r → Left (turns + 1) s
  | popping {s b} : s.wrk = .popping → ¬ SawEmpty s.conf.r → b ≤ 4 * opCost → RBound b s.conf.r →
      Left ((2 ^ 32 - s.buf) * turn + b + 1) s

theorem top_lt (s : Sys) : (2 ^ 32 - s.buf) * turn + 4 * opCost + 3 < turns + 1 := by
  have : (2 ^ 32 - s.buf) * turn ≤ 2 ^ 32 * turn := Nat.mul_le_mul_right _ (by omega)
  unfold turns
  rw [Nat.succ_mul]
  have : 4 * opCost + 4 = turn := rfl
  omega

theorem grow_lt {a b : Nat} (h : a < b) (hb : b < 2 ^ 32) : (2 ^ 32 - b) * turn + 4 * opCost + 4 ≤ (2 ^ 32 - a) * turn := by
  have : (2 ^ 32 - b + 1) * turn ≤ (2 ^ 32 - a) * turn := Nat.mul_le_mul_right _ (by omega)
  rw [Nat.succ_mul] at this
  have : 4 * opCost + 4 = turn := rfl
  omega

theorem Left.some {s : Sys} (hb : Bounded s) (ho : ¬ Over s.wrk) : ∃ b, Left b s := by
  cases hw : s.wrk with
  | start => exact ⟨_, .start hw⟩
  | top last => exact ⟨_, .top hw⟩
  | check => exact ⟨_, .check hw⟩
  | popping =>
    by_cases he : SawEmpty s.conf.r
    · exact ⟨_, .empty hw he⟩
    · obtain ⟨b, h1, h2⟩ := hb.rb hw
      exact ⟨_, .popping hw he h1 h2⟩
  | handle m => exact ⟨_, .handle hw⟩
  | leave => exact absurd (.inl hw) ho
  | gone => exact absurd (.inr (.inl hw)) ho
  | ub => exact absurd (.inr (.inr hw)) ho

/-- others do not change the worker -/
theorem Left.other {b : Nat} {e : Ev} {s t : Sys} (h : Left b s) (st : LStep e s t) (he : e = .prod ∨ e = .dst) : Left b t := by
  have key : t.wrk = s.wrk ∧ t.buf = s.buf ∧ t.conf.r = s.conf.r := by
    obtain ⟨st, _⟩ := st
    cases st with
    | push_step _ _ _ er => exact ⟨rfl, rfl, er⟩
    | push_null | push_call | push_fail | push_ok | push_post | d_flag | d_post | d_join => exact ⟨rfl, rfl, rfl⟩
    | _ => simp at he
  obtain ⟨k1, k2, k3⟩ := key
  cases h with
  | start h => exact .start (by rw [k1, h])
  | top h => rw [← k2]; exact .top (by rw [k1, h])
  | check h => rw [← k2]; exact .check (by rw [k1, h])
  | handle h => exact .handle (by rw [k1, h])
  | empty h h' => exact .empty (by rw [k1, h]) (by rw [k3]; exact h')
  | popping h h1 h2 h3 => rw [← k2]; exact .popping (by rw [k1, h]) (by rw [k3]; exact h1) h2 (by rw [k3]; exact h3)

/-- the worker gets nearer to a delivery -/
theorem Left.own {b : Nat} {e : Ev} {s t : Sys} (h : Left b s) (hs : Reach s) (hz : Sized s) (st : LStep e s t)
    (hr : Reach t) (he : e = .wrk ∨ e = .spurious)
    (hp : (popped s.conf.rhist).length < (pushed s.conf.whist).length) (hd : t.delivered = s.delivered) (ho : ¬ Over t.wrk) :
    ∃ b', b' < b ∧ Left b' t := by
  obtain ⟨st, c1, c2⟩ := st
  have hI := hs.inv
  cases st with
  | push_step | push_null | push_call | push_fail | push_ok | push_post | d_flag | d_post | d_join => simp at he
  | boot_oom | pop_grow_oom | cb_stop => simp at he
  | boot e =>
    cases h with
    | start => exact ⟨_, top_lt _, .top rfl⟩
    | top h' | check h' | handle h' | empty h' | popping h' => rw [e] at h'; cases h'
  | cb_ok e =>
    cases h with
    | handle => exact ⟨_, top_lt _, .top rfl⟩
    | top h' | check h' | start h' | empty h' | popping h' => rw [e] at h'; cases h'
  | wait e =>
    cases h with
    | top => exact ⟨_, by simp only []; omega, .check rfl⟩
    | handle h' | check h' | start h' | empty h' | popping h' => rw [e] at h'; cases h'
  | wait_spurious e =>
    cases h with
    | top => exact ⟨_, by simp only []; omega, .check rfl⟩
    | handle h' | check h' | start h' | empty h' | popping h' => rw [e] at h'; cases h'
  | nowait e =>
    cases h with
    | top => exact ⟨_, by simp only []; omega, .check rfl⟩
    | handle h' | check h' | start h' | empty h' | popping h' => rw [e] at h'; cases h'
  | quit e => simp [Over] at ho
  | leave e => simp [Over] at ho
  | pop_call e =>
    cases h with
    | check =>
      refine ⟨_, ?_, .popping rfl ?_ (Nat.le_refl _) (.run (pop_depth _))⟩
      · simp only []; omega
      · rintro ⟨c, a, h1, h2⟩; simp [pop] at h1
    | handle h' | top h' | start h' | empty h' | popping h' => rw [e] at h'; cases h'
  | pop_step e1 e2 e3 e4 e5 e6 =>
    have hc := MsgSpsc.no_crash hr.inv.reach
    cases h with
    | popping h1 h2 h3 h4 =>
      obtain ⟨b', hb', hB⟩ := h4.step hc.2.2 e3 e4 e6 c1
      refine ⟨_, ?_, .popping e1 ?_ (Nat.le_trans (Nat.le_of_lt hb') h3) hB⟩
      · simp only []; omega
      · intro hE
        rcases sawEmpty_step hI.reach e3 hE with h | h
        · exact h2 h
        · omega
    | empty h1 h2 =>
      -- the call has returned: there is no step inside
      exfalso
      obtain ⟨c, a, h2, _⟩ := h2
      obtain ⟨b', hb', _⟩ := (show RBound (0 * opCost) s.conf.r by rw [h2]; exact .run (.ret a)).step hc.2.2 e3 e4 e6 c1
      omega
    | handle h' | top h' | start h' | check h' => rw [e1] at h'; cases h'
  | pop_ok e => simp at hd
  | pop_grow_ub e => simp [Over] at ho
  | pop_grow e1 e2 e3 e4 =>
    cases h with
    | popping h1 h2 h3 h4 =>
      refine ⟨_, ?_, .top rfl⟩
      obtain ⟨n, hn, hlt⟩ := room_small hI.reach hz e2 e3
      rw [e4] at hn
      simp at hn
      subst hn
      have hbs := hI.buf (by rw [e1]; simp) (by rw [e1]; simp [Over])
      have hbt := hr.inv.buf (by simp) (by simp [Over])
      have hcc := hI.rpc
      rw [e1, e2] at hcc
      simp only [RPc, rcallOf, Option.some.injEq] at hcc
      rw [hcc.1] at hlt
      simp only [BitVec.toNat_ofNat] at hlt
      have := grow_lt (a := s.buf) (by rw [Nat.mod_eq_of_lt hbs] at hlt; exact hlt) hbt
      simp only [] at this ⊢
      omega
    | empty h1 h2 =>
      exfalso
      obtain ⟨c, a, h2, h5⟩ := h2
      rw [e2] at h2
      simp at h2
      rw [h2.2, h5] at e3; simp at e3
    | handle h' | top h' | start h' | check h' => rw [e1] at h'; cases h'
  | pop_retry e1 e2 e3 e4 =>
    cases h with
    | empty h1 h2 => exact ⟨_, top_lt _, .top rfl⟩
    | popping h1 h2 h3 h4 =>
      exfalso
      obtain ⟨_, _, F, _, hr2, _⟩ := MsgSpsc.Reach.inv2 hI.reach
      rcases hr2.inv_ret e2 with ⟨e, _⟩ | ⟨e | ⟨e, _⟩, _⟩
      · exact e3 e
      · exact h2 ⟨_, _, e2, e⟩
      · exact e4 e
    | handle h' | top h' | start h' | check h' => rw [e1] at h'; cases h'

/-- a worker that is neither asleep nor at its end can move -/
theorem worker_can {s : Sys} (hs : Reach s) (hz : Sized s) (hb : Bounded s) (ha : ¬ Asleep s) (hg : s.wrk ≠ .gone) :
    Enabled LStep .wrk s := by
  have hI := hs.inv
  have hu := no_undefined_shift hs hz
  have keep : ∀ {t}, Step .wrk s t → t.conf = s.conf → Enabled LStep .wrk s := by
    intro t h1 h2
    exact ⟨t, h1, by rw [h2]; exact hb.r, by rw [h2]; exact hb.w⟩
  cases hw : s.wrk with
  | start => exact keep (.boot hw) rfl
  | top last =>
    by_cases hl : last = .success ∨ last = .empty
    · refine keep (.wait hw hl ?_) rfl
      rcases Nat.eq_zero_or_pos s.sem with h | h
      · exfalso
        refine ha ⟨?_, h⟩
        rcases hl with rfl | rfl
        · exact .inl hw
        · exact .inr hw
      · exact h
    · exact keep (.nowait hw hl) rfl
  | check =>
    cases hx : s.exit with
    | true => exact keep (.quit hw hx) rfl
    | false =>
      have := hI.rpc
      rw [hw] at this
      exact ⟨_, .pop_call hw hx this, by simp [doneR], hb.w⟩
  | popping =>
    have hrpc := hI.rpc
    rw [hw] at hrpc
    by_cases hret : ∃ c a, s.conf.r = .run c (.ret a)
    · obtain ⟨c, a, hr⟩ := hret
      by_cases h1 : a.code = .success
      · exact ⟨_, .pop_ok hw hr h1, by simp [doneR], hb.w⟩
      · by_cases h2 : a.code = .bufNotEnough
        · cases hn : roundup a.room.toNat with
          | none => exact ⟨_, .pop_grow_ub hw hr h2 hn, by simp [doneR], hb.w⟩
          | some n => exact ⟨_, .pop_grow hw hr h2 hn, by simp [doneR], hb.w⟩
        · exact ⟨_, .pop_retry hw hr h1 h2, by simp [doneR], hb.w⟩
    · obtain ⟨t, h1, h2, h3, h4, h5⟩ := Spsc.reader_can rsafe hI.reach hrpc.2 (fun c a h => hret ⟨c, a, h⟩) hb.r
      exact ⟨_, .pop_step hw hrpc.2 h1 h2 h3 h4, h5, by simp only [h2]; exact hb.w⟩
  | handle m => exact keep (.cb_ok hw) rfl
  | leave => exact keep (.leave hw) rfl
  | gone => exact absurd hw hg
  | ub => exact absurd hw hu

/-- results and deliveries are only appended to -/
theorem Step.grows {e : Ev} {s t : Sys} (st : Step e s t) : s.results <+: t.results ∧ s.delivered <+: t.delivered := by
  cases st <;> simp

theorem accepted_mono {r r' : List (Msg × Code)} (h : r <+: r') : accepted r <+: accepted r' := by
  obtain ⟨l, rfl⟩ := h
  simp [accepted]

theorem run_grows {n k : Nat} (hk : n ≤ k) : (x.st n).results <+: (x.st k).results ∧ (x.st n).delivered <+: (x.st k).delivered :=
  Exec.always (x := x) (n := n) (P := fun s : Sys => (x.st n).results <+: s.results ∧ (x.st n).delivered <+: s.delivered)
    ⟨List.prefix_refl _, List.prefix_refl _⟩ (fun k e _ hl h => by
      have := (x.ok k e hl).1.grows
      exact ⟨h.1.trans this.1, h.2.trans this.2⟩) k hk

/-- **C51** (liveness): in every execution in which the worker is scheduled fairly, every message whose push has returned
success is handed to the callback — in order and with everything accepted before it — or the handler is stopped (the callback
returned non-zero, `malloc` failed, or `destroy` was called), however many pushes go on meanwhile. -/
theorem handled_fair (h0 : Init (x.st 0)) (hz : Sized (x.st 0)) (hf : x.Weak .wrk) (n : Nat) :
    ∃ k, n ≤ k ∧ (accepted (x.st n).results <+: (x.st k).delivered ∨ (x.st k).exit = true) := by
  have hR : ∀ k, Reach (x.st k) := run_reach ⟨_, h0, .refl _⟩
  have hZ := run_sized hz
  have hB := run_bounded h0
  apply Classical.byContradiction
  intro hc
  have hx : ∀ k, n ≤ k → (x.st k).exit = false := fun k hk => by
    cases h : (x.st k).exit with
    | false => rfl
    | true => exact absurd ⟨k, hk, .inr h⟩ hc
  have hnp : ∀ k, n ≤ k → ¬ accepted (x.st n).results <+: (x.st k).delivered := fun k hk h => hc ⟨k, hk, .inl h⟩
  have hlen : ∀ k, n ≤ k → (x.st k).delivered.length < (accepted (x.st n).results).length := fun k hk => by
    rcases Nat.lt_or_ge (x.st k).delivered.length (accepted (x.st n).results).length with h | h
    · exact h
    · exfalso
      refine hnp k hk (List.prefix_of_prefix_length_le ?_ (delivered_in_order (hR k)) h)
      exact (accepted_mono (run_grows (x := x) hk).1).trans (List.prefix_append _ _)
  have hpend : ∀ k, n ≤ k → (popped (x.st k).conf.rhist).length < (pushed (x.st k).conf.whist).length := fun k hk => by
    have h1 := hlen k hk
    have hI := (hR k).inv
    rw [← hI.del, hI.acc, List.length_append]
    have := (accepted_mono (run_grows (x := x) hk).1).length_le
    omega
  have hgone : ∀ k, n ≤ k → (x.st k).wrk ≠ .gone := fun k hk h => by
    have := (hR k).inv.fin h; rw [hx k hk] at this; cases this
  have hasl : ∀ k, n ≤ k → ¬ Asleep (x.st k) := fun k hk h =>
    hnp k hk ((accepted_mono (run_grows (x := x) hk).1).trans (no_lost_wakeup (hR k) h))
  have hen : ∀ k, n ≤ k → Enabled LStep .wrk (x.st k) := fun k hk => worker_can (hR k) (hZ k) (hB k) (hasl k hk) (hgone k hk)
  have hleave : ∀ k, n ≤ k → (x.st k).wrk ≠ .leave := by
    intro k hk hl
    have hall : ∀ j, k ≤ j → (x.st j).wrk = .leave := by
      refine Exec.always (x := x) (n := k) (P := fun s : Sys => s.wrk = .leave) hl ?_
      intro j e hj hlab h
      have st := (x.ok j e hlab).1
      have hg := hgone (j + 1) (by omega)
      generalize x.st (j + 1) = u at st hg
      generalize x.st j = v at st h
      have := stopped_delivers_nothing (.inl h) (.step (.refl v) trivial st)
      rcases this.2 with h | h
      · exact h
      · exact absurd h hg
    obtain ⟨j, hj, hlab⟩ := hf k (fun j hj => hen j (by omega))
    have st := (x.ok j _ hlab).1
    have h1 := hall j hj
    have h2 := hall (j + 1) (by omega)
    generalize x.st (j + 1) = u at st h2
    generalize x.st j = v at st h1
    cases st with
    | leave => simp at h2
    | boot e | wait e | nowait e | quit e | pop_call e | pop_step e | pop_ok e | pop_grow e | pop_grow_ub e | pop_retry e | cb_ok e =>
      rw [h1] at e; cases e
  have hover : ∀ k, n ≤ k → ¬ Over (x.st k).wrk := fun k hk h => by
    rcases h with h | h | h
    · exact hleave k hk h
    · exact hgone k hk h
    · exact no_undefined_shift (hR k) (hZ k) h
  -- from some time on nothing is delivered
  obtain ⟨m, hm, hset⟩ := Fair.settles (fun k => (accepted (x.st n).results).length - (x.st k).delivered.length) n (fun k hk => by
    have := (run_grows (x := x) (show k ≤ k + 1 by omega)).2.length_le
    omega)
  have hdel : ∀ k, m ≤ k → (x.st (k + 1)).delivered = (x.st k).delivered := fun k hk => by
    have h1 := hset k hk
    have h2 := hset (k + 1) (by omega)
    have := hlen k (by omega)
    have := hlen (k + 1) (by omega)
    exact ((run_grows (x := x) (show k ≤ k + 1 by omega)).2.eq_of_length_le (by omega)).symm
  have one : ∀ k b, m ≤ k → Left b (x.st k) → ∃ b', b' ≤ b ∧ Left b' (x.st (k + 1)) ∧ (x.lab k = some .wrk → b' < b) := by
    intro k b hk hb
    cases hlab : x.lab k with
    | none => exact ⟨b, Nat.le_refl _, by rw [x.idle k hlab]; exact hb, by simp⟩
    | some e =>
      have st := x.ok k e hlab
      have own := fun he => hb.own (hR k) (hZ k) st (hR (k + 1)) he (hpend k (by omega)) (hdel k hk) (hover (k + 1) (by omega))
      cases e with
      | prod => exact ⟨b, Nat.le_refl _, hb.other st (.inl rfl), by simp⟩
      | dst => exact ⟨b, Nat.le_refl _, hb.other st (.inr rfl), by simp⟩
      | wrk => obtain ⟨b', h1, h2⟩ := own (.inl rfl); exact ⟨b', by omega, h2, fun _ => h1⟩
      | spurious => obtain ⟨b', h1, h2⟩ := own (.inr rfl); exact ⟨b', by omega, h2, by simp⟩
      | oom =>
        exfalso
        have h1 := hover (k + 1) (by omega)
        have st := st.1
        generalize x.st (k + 1) = u at st h1
        cases st <;> simp [Over] at h1
      | stop =>
        exfalso
        have h1 := hover (k + 1) (by omega)
        have st := st.1
        generalize x.st (k + 1) = u at st h1
        cases st; simp [Over] at h1
  obtain ⟨b, hb⟩ := Left.some (hB m) (hover m hm)
  exact Exec.descend (x := x) Left one (fun k hk => hf k (fun j hj => hen j (by omega))) b hb

/-- ... and when nothing stops it, everything accepted is handled. -/
theorem all_handled_fair (h0 : Init (x.st 0)) (hz : Sized (x.st 0)) (hf : x.Weak .wrk)
    (hno : ∀ k e, x.lab k = some e → e ≠ .oom ∧ e ≠ .stop ∧ e ≠ .dst) (n : Nat) :
    ∃ k, n ≤ k ∧ accepted (x.st n).results <+: (x.st k).delivered := by
  obtain ⟨k, hk, h⟩ := handled_fair h0 hz hf n
  rcases h with h | h
  · exact ⟨k, hk, h⟩
  · exfalso
    have : ∀ k, 0 ≤ k → (x.st k).exit = false ∧ (x.st k).dst = .no ∧ (x.st k).wrk ≠ .leave := by
      refine Exec.always (x := x) (n := 0) (P := fun s : Sys => s.exit = false ∧ s.dst = .no ∧ s.wrk ≠ .leave) ?_ ?_
      · exact ⟨h0.2.2.1, h0.2.2.2.2.2.1, by rw [h0.2.2.2.2.1]; simp⟩
      · intro k e _ hl h
        have st := (x.ok k e hl).1
        have he := hno k e hl
        generalize x.st (k + 1) = u at st
        cases st <;> simp_all
    have := (this k (Nat.zero_le _)).1
    rw [h] at this; cases this

/-- a thread inside `msg_queue_handler_push` that can move all the time moves -/
def PushFair (x : Exec LStep) : Prop :=
  ∀ n, (∀ k, n ≤ k → (x.st k).prod ≠ .idle ∧ Enabled LStep .prod (x.st k)) → ∃ k, n ≤ k ∧ x.lab k = some .prod

/-- **C51** (liveness): every push returns, when the pushing thread is scheduled fairly. -/
theorem push_returns_fair (h0 : Init (x.st 0)) (hf : PushFair x) {n : Nat} {m : Msg} (hp : (x.st n).prod = .pushing m) :
    ∃ k, n ≤ k ∧ (x.st k).prod = .idle := by
  have hR : ∀ k, Reach (x.st k) := run_reach ⟨_, h0, .refl _⟩
  have hB := run_bounded h0
  apply Classical.byContradiction
  intro hc
  have hni : ∀ k, n ≤ k → (x.st k).prod ≠ .idle := fun k hk h => hc ⟨k, hk, h⟩
  -- the pushing thread can always move
  have hen : ∀ k, n ≤ k → Enabled LStep .prod (x.st k) := by
    intro k hk
    have hI := (hR k).inv
    cases hpk : (x.st k).prod with
    | idle => exact absurd hpk (hni k hk)
    | posting m => exact ⟨_, .push_post hpk, (hB k).r, (hB k).w⟩
    | pushing m =>
      have hw := hI.wpc
      rw [hpk] at hw
      by_cases hret : ∃ c a, (x.st k).conf.w = .run c (.ret a)
      · obtain ⟨c, a, hr⟩ := hret
        by_cases h1 : a = .success
        · exact ⟨_, .push_ok hpk hr h1, (hB k).r, by simp [doneW]⟩
        · exact ⟨_, .push_fail hpk hr h1, (hB k).r, by simp [doneW]⟩
      · obtain ⟨t, h1, h2, h3, h4, h5⟩ := Spsc.writer_can
          (fun t ht => ⟨(MsgSpsc.no_crash ht).1, (MsgSpsc.no_crash ht).2.1⟩) hI.reach hw.2 (fun c a h => hret ⟨c, a, h⟩) (hB k).w
        exact ⟨_, .push_step hpk hw.2 h1 h2 h3 h4, by simp only [h2]; exact (hB k).r, h5⟩
  -- steps left
  let L : Nat → Sys → Prop := fun b s => (∃ m b', s.prod = .pushing m ∧ WBound b' s.conf.w ∧ b = b' + 1) ∨ (∃ m, s.prod = .posting m ∧ b = 0)
  have one : ∀ k b, n ≤ k → L b (x.st k) → ∃ b', b' ≤ b ∧ L b' (x.st (k + 1)) ∧ (x.lab k = some .prod → b' < b) := by
    intro k b hk hb
    cases hlab : x.lab k with
    | none => exact ⟨b, Nat.le_refl _, by rw [x.idle k hlab]; exact hb, by simp⟩
    | some e =>
      have st := x.ok k e hlab
      have hcr := MsgSpsc.no_crash (hR (k + 1)).inv.reach
      have hne := hni (k + 1) (by omega)
      obtain ⟨st, _, c2⟩ := st
      by_cases he : e = .prod
      · subst he
        generalize x.st (k + 1) = u at st hcr hne c2
        cases st with
        | push_null m h => exact absurd h (hni k hk)
        | push_call m h => exact absurd h (hni k hk)
        | push_step e1 e2 e3 e4 e5 e6 =>
          rcases hb with ⟨m, b', h1, h2, rfl⟩ | ⟨m, h1, rfl⟩
          · obtain ⟨b'', h3, h4⟩ := h2.step ⟨hcr.1, hcr.2.1⟩ e3 e4 e6 c2
            exact ⟨b'' + 1, by omega, .inl ⟨_, b'', e1, h4, rfl⟩, fun _ => by omega⟩
          · rw [e1] at h1; cases h1
        | push_fail e1 => simp at hne
        | push_ok e1 e2 =>
          rcases hb with ⟨m, b', h1, h2, rfl⟩ | ⟨m, h1, rfl⟩
          · exact ⟨0, by omega, .inr ⟨_, rfl, rfl⟩, fun _ => by omega⟩
          · rw [e1] at h1; cases h1
        | push_post e1 => simp at hne
      · have key : (x.st (k + 1)).prod = (x.st k).prod ∧ (x.st (k + 1)).conf.w = (x.st k).conf.w := by
          generalize x.st (k + 1) = u at st
          cases st with
          | push_null | push_call | push_step | push_fail | push_ok | push_post => exact absurd rfl he
          | pop_step _ _ _ e4 => exact ⟨rfl, e4⟩
          | _ => exact ⟨rfl, rfl⟩
        refine ⟨b, Nat.le_refl _, ?_, fun h => absurd (by simpa using h) he⟩
        simp only [L, key.1, key.2]; exact hb
  obtain ⟨b, hb1, hb⟩ := (hB n).wb m hp
  exact Exec.descend (x := x) L one (fun k hk => hf k (fun j hj => ⟨hni j (by omega), hen j (by omega)⟩)) _ (.inl ⟨m, b, hp, hb, rfl⟩)

/-- steps left to the end of the loop once `flag2exit` is set -/
inductive Ends : Nat → Sys → Prop where
  | start {s} : s.wrk = .start → Ends 4 s
  | top {s last} : s.wrk = .top last → Ends 3 s
  | check {s} : s.wrk = .check → Ends 2 s
  | leave {s} : s.wrk = .leave → Ends 1 s
  | handle {s m} : s.wrk = .handle m → Ends 4 s
  | popping {s b} : s.wrk = .popping → RBound b s.conf.r → Ends (b + 5) s

/-- **C51** (liveness): after `destroy` has posted the semaphore, a fairly scheduled worker comes to its end, so that the join
returns. -/
theorem destroy_joins_fair (h0 : Init (x.st 0)) (hz : Sized (x.st 0)) (hf : x.Weak .wrk) {n : Nat} (hd : (x.st n).dst = .posted) :
    ∃ k, n ≤ k ∧ (x.st k).wrk = .gone := by
  have hR : ∀ k, Reach (x.st k) := run_reach ⟨_, h0, .refl _⟩
  have hZ := run_sized hz
  have hB := run_bounded h0
  apply Classical.byContradiction
  intro hc
  have hg : ∀ k, n ≤ k → (x.st k).wrk ≠ .gone := fun k hk h => hc ⟨k, hk, h⟩
  have hdst : ∀ k, n ≤ k → (x.st k).dst = .posted := by
    refine Exec.always (x := x) (n := n) (P := fun s : Sys => s.dst = .posted) hd ?_
    intro k e hk hl h
    have st := (x.ok k e hl).1
    have hgk := hg k hk
    generalize x.st (k + 1) = u at st
    generalize x.st k = v at st h hgk
    cases st with
    | d_flag e => rw [h] at e; cases e
    | d_post e => exact absurd (h.symm.trans e) (by simp)
    | d_join _ e => exact absurd e hgk
    | push_null _ _ e => rw [h] at e; cases e
    | push_call _ _ e => rw [h] at e; cases e
    | _ => exact h
  have hx : ∀ k, n ≤ k → (x.st k).exit = true := fun k hk => ((hR k).inv.dst (by rw [hdst k hk]; simp)).1
  have hasl : ∀ k, n ≤ k → ¬ Asleep (x.st k) := by
    rintro k hk ⟨h1, h2⟩
    rcases (hR k).inv.tok (hdst k hk) with h | h | h
    · rcases h1 with h1 | h1 <;> simp [h1, Over] at h
    · rcases h1 with h1 | h1 <;> simp [h1] at h
    · omega
  have hen : ∀ k, n ≤ k → Enabled LStep .wrk (x.st k) := fun k hk => worker_can (hR k) (hZ k) (hB k) (hasl k hk) (hg k hk)
  have hsome : ∃ b, Ends b (x.st n) := by
    cases hw : (x.st n).wrk with
    | start => exact ⟨_, .start hw⟩
    | top last => exact ⟨_, .top hw⟩
    | check => exact ⟨_, .check hw⟩
    | popping => obtain ⟨b, _, h2⟩ := (hB n).rb hw; exact ⟨_, .popping hw h2⟩
    | handle m => exact ⟨_, .handle hw⟩
    | leave => exact ⟨_, .leave hw⟩
    | gone => exact absurd hw (hg n (Nat.le_refl _))
    | ub => exact absurd hw (no_undefined_shift (hR n) (hZ n))
  obtain ⟨b, hb⟩ := hsome
  refine Exec.descend (x := x) Ends (e := .wrk) ?_ (fun k hk => hf k (fun j hj => hen j (by omega))) b hb
  intro k b hk hb
  cases hlab : x.lab k with
  | none => exact ⟨b, Nat.le_refl _, by rw [x.idle k hlab]; exact hb, by simp⟩
  | some e =>
    obtain ⟨st, c1, c2⟩ := x.ok k e hlab
    have hcr := MsgSpsc.no_crash (hR (k + 1)).inv.reach
    have hgk := hg (k + 1) (by omega)
    have hub := no_undefined_shift (hR (k + 1)) (hZ (k + 1))
    have hxk := hx k hk
    suffices H : (e ≠ .prod → e ≠ .dst → ∃ b', b' < b ∧ Ends b' (x.st (k + 1))) ∧ ((e = .prod ∨ e = .dst) → Ends b (x.st (k + 1))) by
      by_cases he : e = .prod ∨ e = .dst
      · exact ⟨b, Nat.le_refl _, H.2 he, fun h => by cases h; simp at he⟩
      · obtain ⟨b', h1, h2⟩ := H.1 (fun h => he (.inl h)) (fun h => he (.inr h))
        exact ⟨b', by omega, h2, fun _ => h1⟩
    constructor
    · intro he1 he2
      generalize x.st (k + 1) = u at st c1 c2 hcr hgk hub
      generalize x.st k = v at st hb hxk
      cases st with
      | push_null | push_call | push_step | push_fail | push_ok | push_post => exact absurd rfl he1
      | d_flag | d_post | d_join => exact absurd rfl he2
      | boot e =>
        cases hb with
        | start => exact ⟨3, by omega, .top rfl⟩
        | top h | check h | handle h | popping h | leave h => rw [e] at h; cases h
      | boot_oom e => simp at hgk
      | wait e | wait_spurious e | nowait e =>
        cases hb with
        | top => exact ⟨2, by omega, .check rfl⟩
        | start h | check h | handle h | popping h | leave h => rw [e] at h; cases h
      | quit e =>
        cases hb with
        | check => exact ⟨1, by omega, .leave rfl⟩
        | start h | top h | handle h | popping h | leave h => rw [e] at h; cases h
      | pop_call _ e => rw [hxk] at e; cases e
      | pop_step e1 e2 e3 e4 e5 e6 =>
        cases hb with
        | popping _ h =>
          obtain ⟨b', h1, h2⟩ := h.step hcr.2.2 e3 e4 e6 c1
          exact ⟨b' + 5, by omega, .popping e1 h2⟩
        | start h | top h | handle h | check h | leave h => rw [e1] at h; cases h
      | pop_ok e =>
        cases hb with
        | popping _ h => exact ⟨4, by omega, .handle rfl⟩
        | start h | top h | handle h | check h | leave h => rw [e] at h; cases h
      | pop_grow e | pop_retry e =>
        cases hb with
        | popping _ h => exact ⟨3, by omega, .top rfl⟩
        | start h | top h | handle h | check h | leave h => rw [e] at h; cases h
      | pop_grow_oom e =>
        cases hb with
        | popping _ h => exact ⟨1, by omega, .leave rfl⟩
        | start h | top h | handle h | check h | leave h => rw [e] at h; cases h
      | pop_grow_ub e => simp at hub
      | cb_ok e =>
        cases hb with
        | handle _ => exact ⟨3, by omega, .top rfl⟩
        | start h | top h | popping h | check h | leave h => rw [e] at h; cases h
      | cb_stop e =>
        cases hb with
        | handle _ => exact ⟨1, by omega, .leave rfl⟩
        | start h | top h | popping h | check h | leave h => rw [e] at h; cases h
      | leave e => simp at hgk
    · intro he
      have key : (x.st (k + 1)).wrk = (x.st k).wrk ∧ (x.st (k + 1)).conf.r = (x.st k).conf.r := by
        generalize x.st (k + 1) = u at st
        cases st with
        | push_step _ _ _ er => exact ⟨rfl, er⟩
        | push_null | push_call | push_fail | push_ok | push_post | d_flag | d_post | d_join => exact ⟨rfl, rfl⟩
        | _ => simp at he
      cases hb with
      | start h => exact .start (by rw [key.1, h])
      | top h => exact .top (by rw [key.1, h])
      | check h => exact .check (by rw [key.1, h])
      | leave h => exact .leave (by rw [key.1, h])
      | handle h => exact .handle (by rw [key.1, h])
      | popping h h' => exact .popping (by rw [key.1, h]) (by rw [key.2]; exact h')

/-! ### A fair execution -/

/-- carry out an act of the demonstration, if no byte is copied twice -/
def act (a : Act) (s : Sys) : Option Sys :=
  (exec s a).bind fun t => if (doneR t.conf.r).Nodup ∧ (doneW t.conf.w).Nodup then some t else none

theorem act_sound (a : Act) (s u : Sys) (h : act a s = some u) : LStep a.ev s u := by
  simp only [act, Option.bind_eq_some_iff] at h
  obtain ⟨t, h1, h2⟩ := h
  split at h2
  · next hc => cases h2; exact ⟨exec_sound h1, hc⟩
  · cases h2

def demo : List Act := demoPush ++ .boot :: demoPop ++ [.cb]

/-- Not vacuous: a fair execution of a handler from its creation, in which one message is accepted and handled. -/
theorem fair_demo : ∃ x : Exec LStep, Init (x.st 0) ∧ Sized (x.st 0) ∧ x.Weak .wrk ∧ PushFair x ∧
    (∀ k e, x.lab k = some e → e ≠ .oom ∧ e ≠ .stop ∧ e ≠ .dst) ∧
    ∃ n k, n < k ∧ accepted (x.st n).results = [demoMsg.obj] ∧ (x.st n).delivered = [] ∧ (x.st k).delivered = [demoMsg.obj] := by
  have h : (Fair.runs act demo demoInit).map (fun s => (s.wrk, s.sem, match s.prod with | .idle => true | _ => false)) =
      some (.top .success, 0, true) := by decide +kernel
  obtain ⟨u, hu, he⟩ := Option.map_eq_some_iff.1 h
  simp only [_root_.Prod.mk.injEq] at he
  obtain ⟨x, x0, xend, xlab, xst, xf⟩ := Fair.exists_finite Act.ev act act_sound hu
  have hi : Init demoInit := ⟨⟨rfl, rfl, ⟨5, by decide, by decide, rfl⟩, by decide, rfl, rfl, rfl, rfl, rfl, rfl⟩,
    rfl, rfl, rfl, rfl, rfl, rfl, rfl⟩
  refine ⟨x, by rw [x0]; exact hi, by rw [x0]; decide, (xf _ ?_).weak, ?_, ?_, demoPush.length, demo.length, by decide, ?_, ?_, ?_⟩
  · rintro v ⟨hv, _⟩
    cases hv with
    | wait e h1 h2 => rw [he.2.1] at h2; omega
    | nowait e h1 => rw [he.1] at e; cases e; simp at h1
    | boot e | quit e | pop_call e | pop_step e | pop_ok e | pop_grow e | pop_grow_ub e | pop_retry e | cb_ok e | leave e =>
      rw [he.1] at e; cases e
  · intro n hn
    have := (hn (n + demo.length) (by omega)).1
    rw [xend _ (by omega)] at this
    have h3 := he.2.2
    split at h3
    · contradiction
    · cases h3
  · intro k e hl
    rw [xlab] at hl
    obtain ⟨a, _, rfl⟩ := Option.map_eq_some_iff.1 hl
    cases a <;> simp [Act.ev]
  · rw [xst]
    have : ((Fair.runs act (demo.take demoPush.length) demoInit).map (fun s => accepted s.results)) = some [demoMsg.obj] := by
      decide +kernel
    obtain ⟨v, hv, e⟩ := Option.map_eq_some_iff.1 this
    rw [hv]; exact e
  · rw [xst]
    have : ((Fair.runs act (demo.take demoPush.length) demoInit).map (fun s => s.delivered)) = some [] := by
      decide +kernel
    obtain ⟨v, hv, e⟩ := Option.map_eq_some_iff.1 this
    rw [hv]; exact e
  · rw [xend _ (Nat.le_refl _)]
    have : ((Fair.runs act demo demoInit).map (fun s => s.delivered)) = some [demoMsg.obj] := by
      decide +kernel
    rw [hu] at this; simpa using this

end Verif.MsgHandler
