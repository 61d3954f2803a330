import Verif.MsgTso.Lemmas
/-!
# C72: `msg_queue` between one producer and one consumer thread, on a machine with store buffers
-/
namespace Verif.MsgTso
open RingBuffer (Ring availRead availWrite takeMin)
open MsgQueue (Code encHdr decHdr enc)
open MsgSpsc
open MsgSpsc.Spec (pushed popped inFlight)

/-- **C72**: under total store order, whenever stores reach memory, the messages delivered by successful pops are, in
order, a prefix of the messages whose push returned success followed by at most the one currently being pushed. -/
theorem tso_no_tearing {s : Conf} (h : Reach false s) : popped s.rhist <+: pushed s.whist ++ inFlight s.w := by
  obtain ⟨_, _, _, _, F, hw, _, hq, _⟩ := h.inv2
  exact hq.trans hw.subset.1

/-- **C72**: no `ASSERT_ABORT` fires and no memory outside the ring or the caller's message is touched. -/
theorem tso_no_crash {s : Conf} (h : Reach false s) :
    s.w ≠ .ub ∧ s.w ≠ .aborted ∧ s.r ≠ .ub ∧ s.r ≠ .aborted := by
  have hu := Tso.tso_no_ub push_valid h
  obtain ⟨_, _, _, _, F, hw, hr, _⟩ := h.inv2
  refine ⟨hu.1, fun e => ?_, hu.2, fun e => ?_⟩
  · rw [e] at hw; cases hw
  · rw [e] at hr; cases hr

/-- **C72** (answers of pop): every pop that returned answered SUCCESS (storing no more bytes than the room offered),
EMPTY, or BUF_NOT_ENOUGH with a size larger than the room offered; never AGAIN. -/
theorem tso_pop_answers {s : Conf} (h : Reach false s) : ∀ x ∈ s.rhist,
    (x.2.code = .success ∧ x.2.data.length ≤ x.1.toNat) ∨ x.2.code = .empty ∨
    (x.2.code = .bufNotEnough ∧ x.1 < x.2.room) := by
  obtain ⟨_, _, _, h2, _⟩ := h.inv2
  exact h2

/-- **C72** (nothing lost): whenever both threads are between calls and the store buffers have drained, the queue in
memory holds exactly the messages pushed and not yet popped, in order. -/
theorem tso_idle_holds_rest {s : Conf} (h : Reach false s) (hw : s.w = .idle) (hr : s.r = .idle) (hwq : s.wq = [])
    (hrq : s.rq = []) :
    ∃ rest, pushed s.whist = popped s.rhist ++ rest ∧ RingBuffer.abs s.mem = (rest.map enc).flatten := by
  obtain ⟨_, _, iv, _, F, hw2, hr2, ⟨rest, hq⟩, _⟩ := h.inv2
  obtain ⟨rfl, hS⟩ := hw2.inv_idle hw
  have hP := hr2.inv_idle hr
  refine ⟨rest, hq.symm, ?_⟩
  rw [Tso.tso_drained_holds_rest push_valid h hwq hrq, hS, hP, ← hq, frames_append, List.drop_left]
  simp [frames, List.flatMap]

/-- an empty queue over an 8-byte ring that holds old bytes -/
def demoInit : Conf :=
  ⟨⟨0#32, 0#32, 8#32, [0, 0, 0, 0, 0xAA, 0xBB, 0, 0]⟩, [], [], .idle, .idle, [], [], [], []⟩
theorem demoInit_reach (pso : Bool) : Reach pso demoInit :=
  .init ⟨rfl, rfl, ⟨3, by decide, by decide, rfl⟩, by decide, rfl, rfl, rfl, rfl, rfl, rfl, rfl, rfl⟩

/-- a push of 7,8 runs to its end with nothing reaching memory -/
def pushSched : List (Tso.Act PushCall (BitVec 32)) :=
  [.wcall demoCall, .w 0, .w 0, .w 0, .w 1, .w 2, .w 3, .w 4, .w 0, .w 0, .w 1, .w 2, .w 0]
/-- a whole successful pop with room 9 -/
def popSched : List (Tso.Act PushCall (BitVec 32)) :=
  [.rcall 9#32, .r 0, .r 0, .r 0, .r 1, .r 2, .r 3, .r 4, .r 0, .r 0, .r 0, .r 0, .r 1, .r 2, .r 0]

/-- A push has returned success but nothing has left its store buffer: a pop sees EMPTY.  After the header's stores
have drained a pop still sees EMPTY; after the rest has, a pop delivers the message. -/
example : ∃ s : Conf, Reach false s ∧ pushed s.whist = [[7, 8]] ∧
    s.rhist.map (·.2.code) = [.empty, .empty, .success] ∧ popped s.rhist = [[7, 8]] := by
  have h : (Tso.execs false push pop demoInit (pushSched ++ [.rcall 9#32, .r 0, .r 0] ++
      List.replicate 5 (.wdrain 0) ++ [.rcall 9#32, .r 0, .r 0] ++ List.replicate 3 (.wdrain 0) ++ popSched)).map
      (fun s => (pushed s.whist, s.rhist.map (·.2.code), popped s.rhist)) =
      some ([[7, 8]], [.empty, .empty, .success], [[7, 8]]) := by decide +kernel
  obtain ⟨s, hs, he⟩ := Option.map_eq_some_iff.1 h
  simp only [Prod.mk.injEq] at he
  exact ⟨s, Tso.execs_reach (demoInit_reach false) hs, he.1, he.2.1, he.2.2⟩

/-- **C72** (the guarantee needs store order): when the two stores of `in` may overtake the stores of the bytes they
publish, a pop answers SUCCESS with a message nobody pushed. -/
theorem pso_torn_message : ∃ s : Conf, Reach true s ∧ pushed s.whist = [[7, 8]] ∧ popped s.rhist = [[0xAA, 8]] ∧
    ¬ popped s.rhist <+: pushed s.whist ++ inFlight s.w := by
  have h : (Tso.execs true push pop demoInit (pushSched ++ List.replicate 5 (.wdrain 0) ++
      [.wdrain 1, .wdrain 1] ++ popSched)).map
      (fun s => (pushed s.whist, popped s.rhist, inFlight s.w)) =
      some ([[7, 8]], [[0xAA, 8]], []) := by decide +kernel
  obtain ⟨s, hs, he⟩ := Option.map_eq_some_iff.1 h
  simp only [Prod.mk.injEq] at he
  refine ⟨s, Tso.execs_reach (demoInit_reach true) hs, he.1, he.2.1, ?_⟩
  rw [he.1, he.2.1, he.2.2]; decide

end Verif.MsgTso
