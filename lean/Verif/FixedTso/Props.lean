import Verif.FixedTso.Lemmas
/-!
# C73: `fixed_msg_queue` between one producer and one consumer thread, on a machine with store buffers
-/
namespace Verif.FixedTso
open FixedSpsc
open FixedSpsc.Spec (pushed popped inFlight)

variable {one : BitVec 32}

/-- **C73**: under total store order the messages delivered by successful pops are, in order, a prefix of the messages
whose push returned true followed by at most the one being pushed. -/
theorem tso_no_tearing (h1 : 0 < one.toNat) {s : Conf one} (h : Reach false one s) :
    popped s.rhist <+: pushed s.whist ++ inFlight s.w := by
  obtain ⟨_, _, _, F, hw, _, hq, _⟩ := h.inv2 h1
  exact hq.trans hw.subset.1

/-- **C73**: every popped message has exactly the configured size. -/
theorem tso_popped_size (h1 : 0 < one.toNat) {s : Conf one} (h : Reach false one s) :
    ∀ m ∈ popped s.rhist, m.length = one.toNat := by
  obtain ⟨_, _, _, F, _, _, hq, hm, _⟩ := h.inv2 h1
  exact fun m hx => hm m (hq.subset hx)

/-- **C73**: no memory outside the ring or the caller's message is touched. -/
theorem tso_no_crash (h1 : 0 < one.toNat) {s : Conf one} (h : Reach false one s) :
    s.w ≠ .ub ∧ s.w ≠ .aborted ∧ s.r ≠ .ub ∧ s.r ≠ .aborted := by
  have hu := Tso.tso_no_ub push_valid h
  obtain ⟨_, _, _, F, hw, hr, _⟩ := h.inv2 h1
  refine ⟨hu.1, fun e => ?_, hu.2, fun e => ?_⟩
  · rw [e] at hw; cases hw
  · rw [e] at hr; cases hr

/-- **C73** (nothing lost): between calls, with the store buffers drained, the queue in memory holds exactly the
messages pushed and not yet popped, in order. -/
theorem tso_idle_holds_rest (h1 : 0 < one.toNat) {s : Conf one} (h : Reach false one s) (hw : s.w = .idle)
    (hr : s.r = .idle) (hwq : s.wq = []) (hrq : s.rq = []) :
    ∃ rest, pushed s.whist = popped s.rhist ++ rest ∧ RingBuffer.abs s.mem = rest.flatten := by
  obtain ⟨_, _, iv, F, hw2, hr2, ⟨rest, hq⟩, hm, _⟩ := h.inv2 h1
  obtain ⟨rfl, hS⟩ := hw2.inv_idle hw
  have hP := hr2.inv_idle hr
  refine ⟨rest, hq.symm, ?_⟩
  have hl := flatten_len (F := popped s.rhist) (n := one.toNat) fun m hx => hm m (by rw [← hq]; simp [hx])
  rw [Tso.tso_drained_holds_rest push_valid h hwq hrq, hS, hP, ← hq, List.flatten_append, ← hl, List.drop_left]

/-- an empty queue of 2-byte messages over a 4-byte ring holding old bytes -/
def demoInit : Conf 2#32 := ⟨⟨0#32, 0#32, 4#32, [0xAA, 0xBB, 0, 0]⟩, [], [], .idle, .idle, [], [], [], []⟩
theorem demoInit_reach (pso : Bool) : Reach pso 2#32 demoInit :=
  .init ⟨rfl, rfl, ⟨2, by decide, by decide, rfl⟩, by decide, rfl, rfl, rfl, rfl, rfl, rfl, rfl, rfl⟩
/-- a push of 7,8 runs to its end with nothing reaching memory -/
def pushSched : List (Tso.Act (PushCall 2#32) Unit) := [.wcall demoCall, .w 0, .w 0, .w 1, .w 0, .w 2, .w 0]
def popSched : List (Tso.Act (PushCall 2#32) Unit) := [.rcall (), .r 0, .r 0, .r 0, .r 1, .r 2, .r 0]

/-- A completed push not yet in memory is not seen; once drained it is popped whole. -/
example : ∃ s : Conf 2#32, Reach false 2#32 s ∧ pushed s.whist = [[7, 8]] ∧
    s.rhist = [((), none), ((), some [7, 8])] := by
  have h : (Tso.execs false (push 2#32) (pop 2#32) demoInit (pushSched ++ [.rcall (), .r 0, .r 0] ++
      List.replicate 3 (.wdrain 0) ++ popSched)).map (fun s => (pushed s.whist, s.rhist)) =
      some ([[7, 8]], [((), none), ((), some [7, 8])]) := by decide +kernel
  obtain ⟨s, hs, he⟩ := Option.map_eq_some_iff.1 h
  simp only [Prod.mk.injEq] at he
  exact ⟨s, Tso.execs_reach (demoInit_reach false) hs, he.1, he.2⟩

/-- **C73** (the guarantee needs store order): with store-store reordering a pop returns a torn message. -/
theorem pso_torn_message : ∃ s : Conf 2#32, Reach true 2#32 s ∧ pushed s.whist = [[7, 8]] ∧
    s.rhist = [((), some [0xAA, 8])] := by
  have h : (Tso.execs true (push 2#32) (pop 2#32) demoInit (pushSched ++ [.wdrain 0, .wdrain 1] ++ popSched)).map
      (fun s => (pushed s.whist, s.rhist)) = some ([[7, 8]], [((), some [0xAA, 8])]) := by decide +kernel
  obtain ⟨s, hs, he⟩ := Option.map_eq_some_iff.1 h
  simp only [Prod.mk.injEq] at he
  exact ⟨s, Tso.execs_reach (demoInit_reach true) hs, he.1, he.2⟩

end Verif.FixedTso
