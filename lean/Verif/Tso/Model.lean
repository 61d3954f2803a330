import Verif.Spsc.Model
/-!
# One writer and one reader thread on a `ringbuffer.c` ring, on a machine with store buffers

`ringbuffer.c` uses plain loads and stores: no atomics, no fences.  `Verif.Spsc` runs the two threads on sequentially
consistent memory; here they run on a multiprocessor with store buffers.  Every store of a thread (ring bytes and the
counter `in` by the writer, the counter `out` by the reader) first enters that thread's own buffer and reaches shared
memory later, at a moment nobody controls; a load looks into the thread's own buffer first and then into shared memory.

* `pso = false`: the buffers are FIFO: total store order (x86, SPARC TSO).
* `pso = true`: pending stores to *different* locations may reach memory in any order: partial store order (the
  store-store reordering of SPARC PSO; ARM and POWER reorder at least as much).

The programs run by the threads (`WProg`, `RProg`), their local states and the completed-operation records are those of
`Verif.Spsc`.  The compiler is assumed to keep the source order of a call's stores (bytes before counter); private
objects (source and target of the copies) are not buffered because no other thread looks at them.
-/
namespace Verif.Tso
open RingBuffer (Ring takeMin availRead availWrite)
open Spsc (WProg RProg WLoc RLoc WDone RDone byteAddr)

/-- a pending store of the writer: one ring byte, or the counter `in` -/
inductive WStore where
  | byte (addr : Nat) (b : Byte)
  | inp (v : BitVec 32)

/-- do two stores go to the same location? -/
def WStore.same : WStore → WStore → Bool
  | .byte a _, .byte a' _ => a == a'
  | .inp _, .inp _ => true
  | _, _ => false

/-- effect of a store reaching shared memory -/
def WStore.drain (m : Ring) : WStore → Ring
  | .byte a b => { m with buf := m.buf.set a b }
  | .inp v => { m with inp := v }

/-- a load of `in` by the writer: its newest pending store, else memory -/
def ownIn (mi : BitVec 32) : List WStore → BitVec 32
  | [] => mi
  | .inp v :: q => ownIn v q
  | .byte _ _ :: q => ownIn mi q

/-- a load of `out` by the reader: its newest pending store, else memory -/
def ownOut (mo : BitVec 32) : List (BitVec 32) → BitVec 32
  | [] => mo
  | v :: q => ownOut v q

/-- Global state: shared memory, the two store buffers (oldest first), the threads, and the completed operations. -/
structure Conf (CW RW CR RR : Type) where
  mem : Ring
  wq : List WStore
  rq : List (BitVec 32)
  w : WLoc CW RW
  r : RLoc CR RR
  wlog : List WDone
  rlog : List RDone
  whist : List (CW × RW)
  rhist : List (CR × RR)

variable {CW RW CR RR : Type}

/-- the ring structure as the writer's loads see it -/
def Conf.wview (s : Conf CW RW CR RR) : Ring := { s.mem with inp := ownIn s.mem.inp s.wq }
/-- the ring structure as the reader's loads see it -/
def Conf.rview (s : Conf CW RW CR RR) : Ring := { s.mem with out := ownOut s.mem.out s.rq }

/-- The atomic steps: as `Spsc.Step`, with stores going to the buffers, plus the two drains. -/
inductive Step (pso : Bool) (bodyW : CW → WProg RW) (bodyR : CR → RProg RR) :
    Conf CW RW CR RR → Conf CW RW CR RR → Prop where
  | wcall {s} (c) : s.w = .idle → Step pso bodyW bodyR s { s with w := .run c (bodyW c) }
  | wret {s c a} : s.w = .run c (.ret a) →
      Step pso bodyW bodyR s { s with w := .idle, whist := s.whist ++ [(c, a)] }
  | wabort {s c} : s.w = .run c .abort → Step pso bodyW bodyR s { s with w := .aborted }
  /-- `RingBuffer_available_write`, src/ring/ringbuffer.c:181-184: loads `out` from memory -/
  | wavail {s c k} : s.w = .run c (.avail k) →
      Step pso bodyW bodyR s { s with w := .run c (k (availWrite s.wview)) }
  /-- src/ring/ringbuffer.c:188-191, 197-200: nothing to write or no space seen -/
  | wskip {s c src len k} : s.w = .run c (.write src len k) → (len = 0#32 ∨ availWrite s.wview = 0#32) →
      Step pso bodyW bodyR s { s with w := .run c (k 0#32), wlog := s.wlog ++ [⟨src, len.toNat, 0⟩] }
  /-- src/ring/ringbuffer.c:196-201: loads `out`, fixes the length -/
  | wbegin {s c src len k} : s.w = .run c (.write src len k) → ¬(len = 0#32 ∨ availWrite s.wview = 0#32) →
      Step pso bodyW bodyR s { s with w := .copy c src len k (takeMin len (availWrite s.wview)) [] }
  /-- one byte of the `memcpy`s, src/ring/ringbuffer.c:212-220: enters the store buffer -/
  | wcopy {s c src len k n done} (i : Nat) (b : Byte) : s.w = .copy c src len k n done → i < n.toNat →
      src[i]? = some b → byteAddr s.mem.size s.wview.inp n i < s.mem.buf.length →
      Step pso bodyW bodyR s { s with wq := s.wq ++ [.byte (byteAddr s.mem.size s.wview.inp n i) b],
                                      w := .copy c src len k n (i :: done) }
  /-- a byte copy that leaves the source or the ring object -/
  | wub {s c src len k n done} (i : Nat) : s.w = .copy c src len k n done → i < n.toNat →
      (src[i]? = none ∨ s.mem.buf.length ≤ byteAddr s.mem.size s.wview.inp n i) →
      Step pso bodyW bodyR s { s with w := .ub }
  /-- `in += size`, src/ring/ringbuffer.c:221: enters the store buffer -/
  | wpub {s c src len k n done} : s.w = .copy c src len k n done → (∀ i < n.toNat, i ∈ done) →
      Step pso bodyW bodyR s { s with wq := s.wq ++ [.inp (s.wview.inp + n)], w := .run c (k n),
                                      wlog := s.wlog ++ [⟨src, len.toNat, n.toNat⟩] }
  /-- a pending store of the writer reaches memory: the oldest one, or (`pso`) any one that is the oldest to its
  location -/
  | wdrain {s} (q₁ st q₂) : s.wq = q₁ ++ st :: q₂ → (q₁ = [] ∨ pso = true ∧ ∀ x ∈ q₁, x.same st = false) →
      Step pso bodyW bodyR s { s with mem := st.drain s.mem, wq := q₁ ++ q₂ }
  | rcall {s} (c) : s.r = .idle → Step pso bodyW bodyR s { s with r := .run c (bodyR c) }
  | rret {s c a} : s.r = .run c (.ret a) →
      Step pso bodyW bodyR s { s with r := .idle, rhist := s.rhist ++ [(c, a)] }
  | rabort {s c} : s.r = .run c .abort → Step pso bodyW bodyR s { s with r := .aborted }
  /-- `RingBuffer_available_read`, src/ring/ringbuffer.c:176-179: loads `in` from memory -/
  | ravail {s c k} : s.r = .run c (.avail k) →
      Step pso bodyW bodyR s { s with r := .run c (k (availRead s.rview)) }
  /-- src/ring/ringbuffer.c:227-230, 236-239 -/
  | rskip {s c t pk len k} : s.r = .run c (.read t pk len k) → (len = 0#32 ∨ availRead s.rview = 0#32) →
      Step pso bodyW bodyR s { s with r := .run c (k 0#32 []), rlog := s.rlog ++ [⟨t, pk, len.toNat, 0, []⟩] }
  /-- src/ring/ringbuffer.c:235-240: loads `in`, fixes the length -/
  | rbegin {s c t pk len k} : s.r = .run c (.read t pk len k) → ¬(len = 0#32 ∨ availRead s.rview = 0#32) →
      Step pso bodyW bodyR s { s with r := .copy c t pk len k (takeMin len (availRead s.rview)) [] (fun _ => 0) }
  /-- one byte of the `memcpy`s, src/ring/ringbuffer.c:253-262: loaded from memory -/
  | rcopy {s c pk len k n done tgt} (i : Nat) (b : Byte) : s.r = .copy c true pk len k n done tgt → i < n.toNat →
      s.mem.buf[byteAddr s.mem.size s.rview.out n i]? = some b →
      Step pso bodyW bodyR s
        { s with r := .copy c true pk len k n (i :: done) (fun j => if j = i then b else tgt j) }
  /-- a byte load outside the ring object -/
  | rub {s c pk len k n done tgt} (i : Nat) : s.r = .copy c true pk len k n done tgt → i < n.toNat →
      s.mem.buf[byteAddr s.mem.size s.rview.out n i]? = none → Step pso bodyW bodyR s { s with r := .ub }
  /-- `if (!is_peek) out += size`, src/ring/ringbuffer.c:264-267: enters the store buffer -/
  | rpub {s c t pk len k n done tgt} : s.r = .copy c t pk len k n done tgt →
      (t = true → ∀ i < n.toNat, i ∈ done) →
      Step pso bodyW bodyR s
        { s with rq := if pk then s.rq else s.rq ++ [s.rview.out + n],
                 r := .run c (k n (if t then (List.range n.toNat).map tgt else [])),
                 rlog := s.rlog ++ [⟨t, pk, len.toNat, n.toNat, if t then (List.range n.toNat).map tgt else []⟩] }
  /-- the oldest pending store of the reader reaches memory (all of them go to the one location `out`) -/
  | rdrain {s v q} : s.rq = v :: q → Step pso bodyW bodyR s { s with mem := { s.mem with out := v }, rq := q }

/-- Both threads idle on a freshly created ring of any power-of-two size, nothing pending. -/
def Init (s : Conf CW RW CR RR) : Prop :=
  s.mem.inp = 0#32 ∧ s.mem.out = 0#32 ∧ (∃ k, 1 ≤ k ∧ k ≤ 31 ∧ s.mem.size.toNat = 2 ^ k) ∧
  s.mem.size.toNat ≤ s.mem.buf.length ∧ s.wq = [] ∧ s.rq = [] ∧ s.w = .idle ∧ s.r = .idle ∧ s.wlog = [] ∧
  s.rlog = [] ∧ s.whist = [] ∧ s.rhist = []

/-- Reachable by any number of steps, drains happening at any time. -/
inductive Reach (pso : Bool) (bodyW : CW → WProg RW) (bodyR : CR → RProg RR) : Conf CW RW CR RR → Prop where
  | init {s} : Init s → Reach pso bodyW bodyR s
  | step {s t} : Reach pso bodyW bodyR s → Step pso bodyW bodyR s t → Reach pso bodyW bodyR t

end Verif.Tso
