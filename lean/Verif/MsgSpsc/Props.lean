import Verif.MsgSpsc.Lemmas
import Verif.MsgQueue.Props
import Verif.Spsc.Exec
/-!
# C13: `msg_queue` between one producer thread and one consumer thread
-/
namespace Verif.MsgSpsc
open RingBuffer (Ring availRead availWrite takeMin)
open MsgQueue (Code encHdr decHdr enc)
open Spec (pushed popped inFlight)

/-- **C13**: in every interleaving, the messages delivered by successful pops are, in order, a prefix of the messages
whose push returned success followed by at most the one currently being pushed: whole messages only, none torn,
duplicated, reordered or invented. -/
theorem no_tearing {s : Conf} (h : Reach s) : popped s.rhist <+: pushed s.whist ++ inFlight s.w := by
  obtain ⟨_, _, F, hw, _, hq, _⟩ := h.inv2
  exact hq.trans hw.subset.1

/-- **C13**: no `ASSERT_ABORT` fires and no memory outside the ring or the caller's message is touched, in any
interleaving. -/
theorem no_crash {s : Conf} (h : Reach s) : s.w ≠ .ub ∧ s.w ≠ .aborted ∧ s.r ≠ .ub ∧ s.r ≠ .aborted := by
  obtain ⟨iv, _, F, hw, hr, _, _⟩ := h.inv2
  refine ⟨fun e => ?_, fun e => ?_, fun e => ?_, fun e => ?_⟩
  · have := iv.w; rw [e] at this; exact this
  · rw [e] at hw; cases hw
  · have := iv.r; rw [e] at this; exact this
  · rw [e] at hr; cases hr

/-- **C13** (nothing lost): whenever both threads are between calls, the queue holds exactly the messages pushed and
not yet popped, in order. -/
theorem idle_holds_rest {s : Conf} (h : Reach s) (hw : s.w = .idle) (hr : s.r = .idle) :
    ∃ rest, pushed s.whist = popped s.rhist ++ rest ∧ RingBuffer.abs s.ring = (rest.map enc).flatten := by
  obtain ⟨iv, _, F, hw2, hr2, ⟨rest, hq⟩, _⟩ := h.inv2
  obtain ⟨rfl, hS⟩ := hw2.inv_idle hw
  have hP := hr2.inv_idle hr
  refine ⟨rest, hq.symm, ?_⟩
  rw [Spsc.unread_intact push_valid h, hS, hP, ← hq, frames_append, List.drop_left]
  simp [frames, List.flatMap]

theorem runW_write {α : Type} (r : Ring) (src len) (k : BitVec 32 → Spsc.WProg α) :
    runW r (.write src len k) = (RingBuffer.write r (some src) len).bind fun x => runW x.1 (k x.2) := by
  rw [runW]; cases RingBuffer.write r (some src) len <;> rfl

theorem runR_read {α : Type} (r : Ring) (t pk len) (k : BitVec 32 → List Byte → Spsc.RProg α) :
    runR r (.read t pk len k) = (RingBuffer.readInternal r t len pk).bind fun x => runR x.1 (k x.2.1 x.2.2) := by
  rw [runR]; cases RingBuffer.readInternal r t len pk <;> rfl

/-- The push program, run alone, is the sequential `msg_queue_push`. -/
theorem push_program_seq (r : Ring) (c : PushCall) : runW r (push c) = MsgQueue.push r (some c.msg) c.size := by
  unfold push MsgQueue.push
  split
  · next h => simp [h, runW]
  · next h =>
    simp only [h, if_false, runW, pushAvailK]
    split
    · next h2 => simp [runW]
    · next h2 =>
      simp only [pushHdr, runW_write, Option.bind_eq_bind]
      congr 1; funext x
      simp only [pushHdrK]
      split
      · simp [runW]
      · simp only [pushBody, runW_write]
        congr 1; funext y
        simp only [pushBodyK]
        split <;> simp [runW]

/-- The pop program, run alone, is the sequential `msg_queue_pop`. -/
theorem pop_program_seq (r : Ring) (room : BitVec 32) :
    (runR r (pop room)).map (fun x => (x.1, x.2.code, x.2.data, some x.2.room)) = MsgQueue.pop r true (some room) := by
  have hpk : ∀ r t len n d r', RingBuffer.readInternal r t len true = some (r', n, d) → r' = r := by
    intro r t len n d r' h
    unfold RingBuffer.readInternal at h
    split at h
    · simp at h; exact h.1.symm
    · simp only at h
      split at h
      · simp at h; exact h.1.symm
      · split at h
        · simp only [if_true, Option.bind_eq_bind, Option.bind_eq_some_iff] at h
          obtain ⟨a, _, b, _, h⟩ := h
          simp at h; exact h.1.symm
        · simp at h; exact h.1.symm
  unfold pop MsgQueue.pop
  simp only [runR, popAvailK, Bool.not_true, Bool.false_eq_true, if_false]
  split
  · simp [runR]
  · simp only [popPeek, runR_read, RingBuffer.peek]
    cases e : RingBuffer.readInternal r true 4#32 true with
    | none => rfl
    | some x =>
      obtain ⟨r', n, d⟩ := x
      have := hpk _ _ _ _ _ _ e
      subst this
      simp only [Option.bind_some, popPeekK, Option.bind_eq_bind]
      split
      · simp [runR]
      · cases decHdr d with
        | none => simp [runR]
        | some hdr =>
          simp only [Option.bind_some]
          split
          · simp [runR]
          · split
            · simp [runR]
            · simp only [popDiscard, runR_read, RingBuffer.discard]
              cases RingBuffer.readInternal r' false 4#32 false with
              | none => rfl
              | some y =>
                simp only [Option.bind_some, popDiscardK]
                split
                · simp [runR]
                · simp only [popBody, runR_read, RingBuffer.read, if_true]
                  cases RingBuffer.readInternal y.1 true hdr false with
                  | none => rfl
                  | some z =>
                    simp only [Option.bind_some, popBodyK]
                    split <;> simp [runR]

/-- **C13** (answers of pop): in every interleaving every pop that returned answered SUCCESS (storing no
more bytes than the room offered), EMPTY, or BUF_NOT_ENOUGH with a size larger than the room offered.  In particular AGAIN (header visible, body not) is never
reported with one producer and one consumer. -/
theorem pop_answers {s : Conf} (h : Reach s) : ∀ x ∈ s.rhist,
    (x.2.code = .success ∧ x.2.data.length ≤ x.1.toNat) ∨ x.2.code = .empty ∨ (x.2.code = .bufNotEnough ∧ x.1 < x.2.room) :=
  h.inv2.2.1

/-- the message 7,8 -/
def demoCall : PushCall := ⟨[7, 8], 2#32, by decide⟩
/-- an empty queue over an 8-byte ring -/
def demoInit : Conf := ⟨⟨0#32, 0#32, 8#32, [0, 0, 0, 0, 0, 0, 0, 0]⟩, .idle, .idle, [], [], [], []⟩
theorem demoInit_reach : Reach demoInit :=
  .init ⟨rfl, rfl, ⟨3, by decide, by decide, rfl⟩, by decide, rfl, rfl, rfl, rfl, rfl, rfl⟩
/-- push up to its header, a whole pop, the body (bytes in reverse order), a whole pop; the push has not returned -/
def demoSched : List (Spsc.Act PushCall (BitVec 32)) :=
  [.wcall demoCall, .w 0, .w 0, .w 0, .w 1, .w 2, .w 3, .w 4,
   .rcall 9#32, .r 0, .r 0,
   .w 0, .w 1, .w 0, .w 2,
   .rcall 9#32, .r 0, .r 0, .r 0, .r 1, .r 2, .r 3, .r 4, .r 0, .r 0, .r 0, .r 0, .r 1, .r 2, .r 0]

/-- A reachable state in which a pop ran *between* the header write and the body write of a push (and saw EMPTY), and
another one after it delivered the message while the push had not returned yet. -/
example : ∃ s : Conf, Reach s ∧ s.rhist = [(9#32, ⟨.empty, [], 9#32⟩), (9#32, ⟨.success, [7, 8], 9#32⟩)] ∧
    inFlight s.w = [[7, 8]] := by
  have h : (Spsc.execs push pop demoInit demoSched).map (fun s => (s.rhist, inFlight s.w)) =
      some ([(9#32, ⟨.empty, [], 9#32⟩), (9#32, ⟨.success, [7, 8], 9#32⟩)], [[7, 8]]) := by decide +kernel
  obtain ⟨s, hs, he⟩ := Option.map_eq_some_iff.1 h
  exact ⟨s, Spsc.execs_reach demoInit_reach hs, congrArg Prod.fst he, congrArg Prod.snd he⟩

end Verif.MsgSpsc
