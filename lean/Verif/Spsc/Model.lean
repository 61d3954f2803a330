import Verif.RingBuffer.Model
/-!
# One writer thread and one reader thread on a `ringbuffer.c` ring, without locks

Small-step model.  A call made by a thread is a program over the ring operations; the atomic steps are: the load of
the *other* thread's counter, the copy of one byte (the bytes of a `memcpy` in **any** order, repetitions allowed), and
the store of the own counter.  Loads of a thread's own counter are not separate steps: no other thread stores to it.
Memory is sequentially consistent (no weak memory; the C code has no fences).
-/
namespace Verif.Spsc
open RingBuffer (Ring takeMin availRead availWrite)

/-- A writer-side call: a program over `RingBuffer_available_write` and `RingBuffer_write` (non-NULL source).
`abort` is a failing `ASSERT_ABORT`. -/
inductive WProg (α : Type) where
  | ret (a : α)
  | abort
  | avail (k : BitVec 32 → WProg α)
  | write (src : List Byte) (len : BitVec 32) (k : BitVec 32 → WProg α)

/-- A reader-side call: `RingBuffer_available_read`, and `RingBuffer_read`/`_peek`/`_discard`
(= `RingBuffer_read_internal` with the two flags). -/
inductive RProg (α : Type) where
  | ret (a : α)
  | abort
  | avail (k : BitVec 32 → RProg α)
  | read (target peek : Bool) (len : BitVec 32) (k : BitVec 32 → List Byte → RProg α)

/-- Where byte `i` of an `n`-byte transfer starting at free-running counter `pos` lives,
src/ring/ringbuffer.c:208-220 (writer) and 248-262 (reader). -/
def byteAddr (size pos n : BitVec 32) (i : Nat) : Nat :=
  let start := pos &&& (size - 1#32)
  let first := takeMin n (size - start)
  if i < first.toNat then start.toNat + i else i - first.toNat

/-- Writer thread: idle, about to run a program, inside the copy phase of `RingBuffer_write` (indices copied so far),
or crashed. -/
inductive WLoc (C α : Type) where
  | idle
  | run (c : C) (p : WProg α)
  | copy (c : C) (src : List Byte) (len : BitVec 32) (k : BitVec 32 → WProg α) (n : BitVec 32) (done : List Nat)
  | ub
  | aborted

/-- Reader thread; `tgt` is the destination object as filled so far. -/
inductive RLoc (C α : Type) where
  | idle
  | run (c : C) (p : RProg α)
  | copy (c : C) (target peek : Bool) (len : BitVec 32) (k : BitVec 32 → List Byte → RProg α) (n : BitVec 32)
      (done : List Nat) (tgt : Nat → Byte)
  | ub
  | aborted

/-- Result of one completed `RingBuffer_write`: arguments and return value. -/
structure WDone where
  src : List Byte
  len : Nat
  n : Nat

/-- Result of one completed `RingBuffer_read_internal`: arguments, return value, bytes stored to the target. -/
structure RDone where
  target : Bool
  peek : Bool
  len : Nat
  n : Nat
  data : List Byte

/-- Global state.  `wlog`/`rlog` list the completed ring operations in the order of their counter stores,
`whist`/`rhist` the returned calls with their results. -/
structure Conf (CW RW CR RR : Type) where
  ring : Ring
  w : WLoc CW RW
  r : RLoc CR RR
  wlog : List WDone
  rlog : List RDone
  whist : List (CW × RW)
  rhist : List (CR × RR)

variable {CW RW CR RR : Type}

/-- The atomic steps.  `bodyW c`/`bodyR c` is the program of call `c`; an idle thread may make any call, any time. -/
inductive Step (bodyW : CW → WProg RW) (bodyR : CR → RProg RR) : Conf CW RW CR RR → Conf CW RW CR RR → Prop where
  | wcall {s} (c) : s.w = .idle → Step bodyW bodyR s { s with w := .run c (bodyW c) }
  | wret {s c a} : s.w = .run c (.ret a) → Step bodyW bodyR s { s with w := .idle, whist := s.whist ++ [(c, a)] }
  | wabort {s c} : s.w = .run c .abort → Step bodyW bodyR s { s with w := .aborted }
  /-- `RingBuffer_available_write`, src/ring/ringbuffer.c:181-184: loads `out` -/
  | wavail {s c k} : s.w = .run c (.avail k) → Step bodyW bodyR s { s with w := .run c (k (availWrite s.ring)) }
  /-- src/ring/ringbuffer.c:188-191, 197-200: nothing to write or no space seen -/
  | wskip {s c src len k} : s.w = .run c (.write src len k) → (len = 0#32 ∨ availWrite s.ring = 0#32) →
      Step bodyW bodyR s { s with w := .run c (k 0#32), wlog := s.wlog ++ [⟨src, len.toNat, 0⟩] }
  /-- src/ring/ringbuffer.c:196-201: loads `out`, fixes the length -/
  | wbegin {s c src len k} : s.w = .run c (.write src len k) → ¬(len = 0#32 ∨ availWrite s.ring = 0#32) →
      Step bodyW bodyR s { s with w := .copy c src len k (takeMin len (availWrite s.ring)) [] }
  /-- one byte of the `memcpy`s, src/ring/ringbuffer.c:212-220 -/
  | wcopy {s c src len k n done} (i : Nat) (b : Byte) (m : Mem) : s.w = .copy c src len k n done → i < n.toNat →
      src[i]? = some b → s.ring.buf.store (byteAddr s.ring.size s.ring.inp n i) [b] = some m →
      Step bodyW bodyR s { s with ring := { s.ring with buf := m }, w := .copy c src len k n (i :: done) }
  /-- a byte copy that leaves the source or the ring object -/
  | wub {s c src len k n done} (i : Nat) : s.w = .copy c src len k n done → i < n.toNat →
      (src[i]? = none ∨ ∃ b, s.ring.buf.store (byteAddr s.ring.size s.ring.inp n i) [b] = none) →
      Step bodyW bodyR s { s with w := .ub }
  /-- `in += size`, src/ring/ringbuffer.c:221 -/
  | wpub {s c src len k n done} : s.w = .copy c src len k n done → (∀ i < n.toNat, i ∈ done) →
      Step bodyW bodyR s { s with ring := { s.ring with inp := s.ring.inp + n }, w := .run c (k n),
                                  wlog := s.wlog ++ [⟨src, len.toNat, n.toNat⟩] }
  | rcall {s} (c) : s.r = .idle → Step bodyW bodyR s { s with r := .run c (bodyR c) }
  | rret {s c a} : s.r = .run c (.ret a) → Step bodyW bodyR s { s with r := .idle, rhist := s.rhist ++ [(c, a)] }
  | rabort {s c} : s.r = .run c .abort → Step bodyW bodyR s { s with r := .aborted }
  /-- `RingBuffer_available_read`, src/ring/ringbuffer.c:176-179: loads `in` -/
  | ravail {s c k} : s.r = .run c (.avail k) → Step bodyW bodyR s { s with r := .run c (k (availRead s.ring)) }
  /-- src/ring/ringbuffer.c:227-230, 236-239 -/
  | rskip {s c t pk len k} : s.r = .run c (.read t pk len k) → (len = 0#32 ∨ availRead s.ring = 0#32) →
      Step bodyW bodyR s { s with r := .run c (k 0#32 []), rlog := s.rlog ++ [⟨t, pk, len.toNat, 0, []⟩] }
  /-- src/ring/ringbuffer.c:235-240: loads `in`, fixes the length -/
  | rbegin {s c t pk len k} : s.r = .run c (.read t pk len k) → ¬(len = 0#32 ∨ availRead s.ring = 0#32) →
      Step bodyW bodyR s { s with r := .copy c t pk len k (takeMin len (availRead s.ring)) [] (fun _ => 0) }
  /-- one byte of the `memcpy`s, src/ring/ringbuffer.c:253-262 -/
  | rcopy {s c pk len k n done tgt} (i : Nat) (b : Byte) : s.r = .copy c true pk len k n done tgt → i < n.toNat →
      s.ring.buf[byteAddr s.ring.size s.ring.out n i]? = some b →
      Step bodyW bodyR s { s with r := .copy c true pk len k n (i :: done) (fun j => if j = i then b else tgt j) }
  /-- a byte load outside the ring object -/
  | rub {s c pk len k n done tgt} (i : Nat) : s.r = .copy c true pk len k n done tgt → i < n.toNat →
      s.ring.buf[byteAddr s.ring.size s.ring.out n i]? = none → Step bodyW bodyR s { s with r := .ub }
  /-- `if (!is_peek) out += size`, src/ring/ringbuffer.c:264-267 -/
  | rpub {s c t pk len k n done tgt} : s.r = .copy c t pk len k n done tgt → (t = true → ∀ i < n.toNat, i ∈ done) →
      Step bodyW bodyR s
        { s with ring := { s.ring with out := if pk then s.ring.out else s.ring.out + n },
                 r := .run c (k n (if t then (List.range n.toNat).map tgt else [])),
                 rlog := s.rlog ++ [⟨t, pk, len.toNat, n.toNat, if t then (List.range n.toNat).map tgt else []⟩] }

/-- Both threads idle on a freshly created ring of any power-of-two size. -/
def Init (s : Conf CW RW CR RR) : Prop :=
  s.ring.inp = 0#32 ∧ s.ring.out = 0#32 ∧ (∃ k, 1 ≤ k ∧ k ≤ 31 ∧ s.ring.size.toNat = 2 ^ k) ∧
  s.ring.size.toNat ≤ s.ring.buf.length ∧ s.w = .idle ∧ s.r = .idle ∧ s.wlog = [] ∧ s.rlog = [] ∧
  s.whist = [] ∧ s.rhist = []

/-- Reachable by any number of steps in any interleaving. -/
inductive Reach (bodyW : CW → WProg RW) (bodyR : CR → RProg RR) : Conf CW RW CR RR → Prop where
  | init {s} : Init s → Reach bodyW bodyR s
  | step {s t} : Reach bodyW bodyR s → Step bodyW bodyR s t → Reach bodyW bodyR t

/-- every source object is at least as long as the length passed with it -/
inductive WProg.Valid {α : Type} : WProg α → Prop where
  | ret (a) : Valid (.ret a)
  | abort : Valid .abort
  | avail {k} : (∀ n, Valid (k n)) → Valid (.avail k)
  | write {src len k} : len.toNat ≤ src.length → (∀ n, Valid (k n)) → Valid (.write src len k)

end Verif.Spsc
