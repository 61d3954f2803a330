import Verif.FixedSpsc.Lemmas
import Verif.MsgSpsc.Props
import Verif.Spsc.Exec
/-!
# C61: `fixed_msg_queue` between one producer thread and one consumer thread
-/
namespace Verif.FixedSpsc
open RingBuffer (Ring availRead availWrite takeMin)
open Spec (pushed popped inFlight)
open MsgSpsc (runW runR runW_write runR_read)

variable {one : BitVec 32}

/-- **C61**: in every interleaving the messages delivered by successful pops are, in order, a prefix of the messages
whose push returned true followed by at most the one being pushed: whole messages, none torn, duplicated, reordered or
invented. -/
theorem no_tearing (h1 : 0 < one.toNat) {s : Conf one} (h : Reach one s) :
    popped s.rhist <+: pushed s.whist ++ inFlight s.w := by
  obtain ⟨_, F, hw, _, hq, _⟩ := h.inv2 h1
  exact hq.trans hw.subset.1

/-- **C61**: every popped message has exactly the configured size. -/
theorem popped_size (h1 : 0 < one.toNat) {s : Conf one} (h : Reach one s) : ∀ m ∈ popped s.rhist, m.length = one.toNat := by
  obtain ⟨_, F, _, _, hq, hm⟩ := h.inv2 h1
  exact fun m hx => hm m (hq.subset hx)

/-- **C61**: no memory outside the ring or the caller's message is touched, in any interleaving. -/
theorem no_crash (h1 : 0 < one.toNat) {s : Conf one} (h : Reach one s) :
    s.w ≠ .ub ∧ s.w ≠ .aborted ∧ s.r ≠ .ub ∧ s.r ≠ .aborted := by
  obtain ⟨iv, F, hw, hr, _, _⟩ := h.inv2 h1
  refine ⟨fun e => ?_, fun e => ?_, fun e => ?_, fun e => ?_⟩
  · have := iv.w; rw [e] at this; exact this
  · rw [e] at hw; cases hw
  · have := iv.r; rw [e] at this; exact this
  · rw [e] at hr; cases hr

/-- **C61** (nothing lost): between calls the queue holds exactly the messages pushed and not yet popped, in order. -/
theorem idle_holds_rest (h1 : 0 < one.toNat) {s : Conf one} (h : Reach one s) (hw : s.w = .idle) (hr : s.r = .idle) :
    ∃ rest, pushed s.whist = popped s.rhist ++ rest ∧ RingBuffer.abs s.ring = rest.flatten := by
  obtain ⟨iv, F, hw2, hr2, ⟨rest, hq⟩, hm⟩ := h.inv2 h1
  obtain ⟨rfl, hS⟩ := hw2.inv_idle hw
  have hP := hr2.inv_idle hr
  refine ⟨rest, hq.symm, ?_⟩
  have hl := flatten_len (F := popped s.rhist) (n := one.toNat) fun m hx => hm m (by rw [← hq]; simp [hx])
  rw [Spsc.unread_intact push_valid h, hS, hP, ← hq, List.flatten_append, ← hl, List.drop_left]

/-- The push program, run alone, is the sequential `fixed_msg_queue_push`. -/
theorem push_program_seq (r : Ring) (c : PushCall one) :
    (runW r (push one c)).map (fun x => ((⟨x.1, one⟩ : FixedMsgQueue.Queue), x.2)) =
      FixedMsgQueue.push ⟨r, one⟩ (some c.msg) := by
  unfold push FixedMsgQueue.push FixedMsgQueue.isFull FixedMsgQueue.pushAmount
  simp only [runW, pushAvailK, beq_iff_eq]
  split
  · simp [runW]
  · simp only [pushWrite, runW_write]
    cases RingBuffer.write r (some c.msg) one with
    | none => rfl
    | some x => simp [runW, pushK]

/-- The pop program, run alone, is the sequential `fixed_msg_queue_pop`. -/
theorem pop_program_seq (r : Ring) :
    (runR r (pop one ())).map (fun x => ((⟨x.1, one⟩ : FixedMsgQueue.Queue), x.2)) =
      (FixedMsgQueue.pop ⟨r, one⟩ true).map (fun x => (x.1, if x.2.1 then some x.2.2 else none)) := by
  unfold pop FixedMsgQueue.pop FixedMsgQueue.isEmpty FixedMsgQueue.popAmount
  simp only [runR, popAvailK, Bool.not_true, Bool.or_false, beq_iff_eq]
  split
  · simp [runR]
  · simp only [popRead, runR_read, RingBuffer.read, if_true]
    cases RingBuffer.readInternal r true one false with
    | none => rfl
    | some x => simp [runR, popK]

/-- the message 7,8 -/
def demoCall : PushCall 2#32 := ⟨[7, 8], by decide⟩
def demoInit : Conf 2#32 := ⟨⟨0#32, 0#32, 4#32, [0, 0, 0, 0]⟩, .idle, .idle, [], [], [], []⟩
theorem demoInit_reach : Reach 2#32 demoInit :=
  .init ⟨rfl, rfl, ⟨2, by decide, by decide, rfl⟩, by decide, rfl, rfl, rfl, rfl, rfl, rfl⟩
/-- a pop in the middle of a push, and one between its publication and its return -/
def demoSched : List (Spsc.Act (PushCall 2#32) Unit) :=
  [.wcall demoCall, .w 0, .w 0, .w 1, .rcall (), .r 0, .r 0, .w 0, .w 2, .rcall (), .r 0, .r 0, .r 0, .r 1, .r 2, .r 0]

/-- A reachable state: a pop saw nothing while the message was half written, the next one got all of it. -/
example : ∃ s : Conf 2#32, Reach 2#32 s ∧ s.rhist = [((), none), ((), some [7, 8])] ∧ inFlight s.w = [[7, 8]] := by
  have h : (Spsc.execs (push 2#32) (pop 2#32) demoInit demoSched).map (fun s => (s.rhist, inFlight s.w)) =
      some ([((), none), ((), some [7, 8])], [[7, 8]]) := by decide +kernel
  obtain ⟨s, hs, he⟩ := Option.map_eq_some_iff.1 h
  exact ⟨s, Spsc.execs_reach demoInit_reach hs, congrArg Prod.fst he, congrArg Prod.snd he⟩

end Verif.FixedSpsc
