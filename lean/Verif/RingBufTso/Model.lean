import Verif.RingBufSpsc.Model
/-!
# One writer and one reader thread on a `ring_buf.c` ring, on a machine with store buffers

`ring_buf.c` uses plain loads and stores.  `Verif.RingBufSpsc` runs the two threads on sequentially consistent memory;
here every store of a thread (ring bytes and `offset_write` by the writer, `offset_read` by the reader) first enters that
thread's own buffer and reaches shared memory later, at a moment nobody controls; a load looks into the thread's own
buffer first and then into shared memory.

* `pso = false`: the buffers are FIFO: total store order (x86, SPARC TSO).
* `pso = true`: pending stores to *different* locations may reach memory in any order (SPARC PSO; ARM and POWER reorder
  at least as much).

Thread states, completed-call records, `byteAddr` and `newOffset` are those of `Verif.RingBufSpsc`.  The compiler is
assumed to keep the source order of a call's stores (bytes before offset).
-/
namespace Verif.RingBufTso
open RingBuf (Ring availRead availWrite)
open RingBufSpsc (WLoc RLoc WDone RDone byteAddr newOffset)

/-- a pending store of the writer: one ring byte, or `offset_write` -/
inductive WStore where
  | byte (addr : Nat) (b : Byte)
  | off (v : BitVec 64)

/-- do two stores go to the same location? -/
def WStore.same : WStore → WStore → Bool
  | .byte a _, .byte a' _ => a == a'
  | .off _, .off _ => true
  | _, _ => false

/-- effect of a store reaching shared memory -/
def WStore.drain (m : Ring) : WStore → Ring
  | .byte a b => { m with pbuf := m.pbuf.set a b }
  | .off v => { m with offWrite := v }

/-- a load of `offset_write` by the writer: its newest pending store, else memory -/
def ownW (mi : BitVec 64) : List WStore → BitVec 64
  | [] => mi
  | .off v :: q => ownW v q
  | .byte _ _ :: q => ownW mi q

/-- a load of `offset_read` by the reader: its newest pending store, else memory -/
def ownR (mo : BitVec 64) : List (BitVec 64) → BitVec 64
  | [] => mo
  | v :: q => ownR v q

/-- Global state: shared memory, the two store buffers (oldest first), the threads, and the completed calls. -/
structure Conf where
  mem : Ring
  wq : List WStore
  rq : List (BitVec 64)
  w : WLoc
  r : RLoc
  wlog : List WDone
  rlog : List RDone

/-- the ring structure as the writer's loads see it -/
def Conf.wview (s : Conf) : Ring := { s.mem with offWrite := ownW s.mem.offWrite s.wq }
/-- the ring structure as the reader's loads see it -/
def Conf.rview (s : Conf) : Ring := { s.mem with offRead := ownR s.mem.offRead s.rq }

/-- The atomic steps: as `RingBufSpsc.Step`, with stores going to the buffers, plus the two drains. -/
inductive Step (pso : Bool) : Conf → Conf → Prop where
  /-- `ring_buf_write(handle, source, len)` with a source object of at least `len` bytes -/
  | wcall {s} (src : List Byte) (len : BitVec 64) : s.w = .idle → len.toNat ≤ src.length →
      Step pso s { s with w := .enter src len }
  /-- src/ring/ring_buf.c:145-148: `return 0` -/
  | wrefuse {s src len} : s.w = .enter src len → (0#64 = len ∨ availWrite s.wview < len) →
      Step pso s { s with w := .idle, wlog := s.wlog ++ [⟨src, len.toNat, 0⟩] }
  /-- src/ring/ring_buf.c:145: loads `offset_read` from memory -/
  | wbegin {s src len} : s.w = .enter src len → ¬(0#64 = len ∨ availWrite s.wview < len) →
      Step pso s { s with w := .copy src len [] }
  /-- one byte of the `memcpy`s, src/ring/ring_buf.c:155, 171: enters the store buffer -/
  | wcopy {s src len done} (i : Nat) (b : Byte) : s.w = .copy src len done → i < len.toNat →
      src[i]? = some b → byteAddr s.mem.size s.wview.offWrite len i < s.mem.pbuf.length →
      Step pso s { s with wq := s.wq ++ [.byte (byteAddr s.mem.size s.wview.offWrite len i) b],
                          w := .copy src len (i :: done) }
  /-- a byte copy that leaves the source or the ring object -/
  | wub {s src len done} (i : Nat) : s.w = .copy src len done → i < len.toNat →
      (src[i]? = none ∨ s.mem.pbuf.length ≤ byteAddr s.mem.size s.wview.offWrite len i) →
      Step pso s { s with w := .ub }
  /-- the store to `offset_write`, src/ring/ring_buf.c:167, 172: enters the store buffer -/
  | wpub {s src len done} : s.w = .copy src len done → (∀ i < len.toNat, i ∈ done) →
      Step pso s { s with wq := s.wq ++ [.off (newOffset s.mem.size s.wview.offWrite len)], w := .idle,
                          wlog := s.wlog ++ [⟨src, len.toNat, len.toNat⟩] }
  /-- a pending store of the writer reaches memory: the oldest one, or (`pso`) any one that is the oldest to its
  location -/
  | wdrain {s} (q₁ st q₂) : s.wq = q₁ ++ st :: q₂ → (q₁ = [] ∨ pso = true ∧ ∀ x ∈ q₁, x.same st = false) →
      Step pso s { s with mem := st.drain s.mem, wq := q₁ ++ q₂ }
  /-- `ring_buf_read`, `ring_buf_peek`, `ring_buf_discard`, src/ring/ring_buf.c:128-141 -/
  | rcall {s} (target peek : Bool) (len : BitVec 64) : s.r = .idle → Step pso s { s with r := .enter target peek len }
  /-- src/ring/ring_buf.c:87-90: `return 0` -/
  | rrefuse {s t pk len} : s.r = .enter t pk len → (len = 0#64 ∨ availRead s.rview < len) →
      Step pso s { s with r := .idle, rlog := s.rlog ++ [⟨t, pk, len.toNat, 0, []⟩] }
  /-- src/ring/ring_buf.c:87: loads `offset_write` from memory -/
  | rbegin {s t pk len} : s.r = .enter t pk len → ¬(len = 0#64 ∨ availRead s.rview < len) →
      Step pso s { s with r := .copy t pk len [] (fun _ => 0) }
  /-- one byte of the `memcpy`s, src/ring/ring_buf.c:95-98, 104-107: loaded from memory -/
  | rcopy {s pk len done tgt} (i : Nat) (b : Byte) : s.r = .copy true pk len done tgt → i < len.toNat →
      s.mem.pbuf[byteAddr s.mem.size s.rview.offRead len i]? = some b →
      Step pso s { s with r := .copy true pk len (i :: done) (fun j => if j = i then b else tgt j) }
  /-- a byte load outside the ring object -/
  | rub {s pk len done tgt} (i : Nat) : s.r = .copy true pk len done tgt → i < len.toNat →
      s.mem.pbuf[byteAddr s.mem.size s.rview.offRead len i]? = none → Step pso s { s with r := .ub }
  /-- `if (!is_peek) offset_read = ...; return len`, src/ring/ring_buf.c:108-125: enters the store buffer -/
  | rpub {s t pk len done tgt} : s.r = .copy t pk len done tgt → (t = true → ∀ i < len.toNat, i ∈ done) →
      Step pso s { s with rq := if pk then s.rq else s.rq ++ [newOffset s.mem.size s.rview.offRead len],
                          r := .idle,
                          rlog := s.rlog ++
                            [⟨t, pk, len.toNat, len.toNat, if t then (List.range len.toNat).map tgt else []⟩] }
  /-- the oldest pending store of the reader reaches memory (all of them go to the one location `offset_read`) -/
  | rdrain {s v q} : s.rq = v :: q → Step pso s { s with mem := { s.mem with offRead := v }, rq := q }

/-- Both threads idle on a ring just made by `ring_buf_create_with_mem`, nothing pending. -/
def Init (s : Conf) : Prop :=
  (∃ (mem : Mem) (n : BitVec 64), RingBuf.createWithMem (some mem) n = some s.mem ∧ n.toNat ≤ mem.length ∧
    n.toNat ≤ 2 ^ 63) ∧ s.wq = [] ∧ s.rq = [] ∧ s.w = .idle ∧ s.r = .idle ∧ s.wlog = [] ∧ s.rlog = []

/-- any number of steps, drains happening at any time -/
inductive Steps (pso : Bool) : Conf → Conf → Prop where
  | refl (s) : Steps pso s s
  | step {s t u} : Steps pso s t → Step pso t u → Steps pso s u

/-- reachable from a fresh ring -/
def Reach (pso : Bool) (s : Conf) : Prop := ∃ s0, Init s0 ∧ Steps pso s0 s

end Verif.RingBufTso
