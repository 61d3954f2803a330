import Verif.RingBuf.Model
/-!
# One writer thread and one reader thread on a `ring_buf.c` ring, without locks

Small-step model.  The atomic steps of a call are: the load of the *other* thread's offset (which fixes whether the
call is refused), the copy of one byte (the bytes of the two `memcpy`s in **any** order, repetitions allowed), and the
store of the own offset.  Loads of a thread's own offset are not separate steps: no other thread stores to it.
Memory is sequentially consistent (the C code has neither fences nor atomics).  NULL handles are outside the model.
-/
namespace Verif.RingBufSpsc
open RingBuf (Ring takeMin availRead availWrite)

/-- Where byte `i` of a `len`-byte transfer starting at offset `off` lives: `pbuf + off` for the first part,
`pbuf` for the second, src/ring/ring_buf.c:93-107 (reader) and 151-156, 171 (writer). -/
def byteAddr (size off len : BitVec 64) (i : Nat) : Nat :=
  let first := takeMin len (size - off)
  if i < first.toNat then off.toNat + i else i - first.toNat

/-- The offset stored at the end of a transfer, src/ring/ring_buf.c:101-124 (reader), 159-173 (writer). -/
def newOffset (size off len : BitVec 64) : BitVec 64 :=
  let first := takeMin len (size - off)
  let second := len - first
  if second ≠ 0#64 then second
  else if off + first = size then 0#64 else off + first

/-- Writer thread: between calls, inside `ring_buf_write(src, len)` before the load of `offset_read`, in its copy phase
(indices copied so far), or having left an object. -/
inductive WLoc where
  | idle
  | enter (src : List Byte) (len : BitVec 64)
  | copy (src : List Byte) (len : BitVec 64) (done : List Nat)
  | ub

/-- Reader thread in `internal_ring_buf_read(is_peek, target, len)`; `tgt` is the destination as filled so far. -/
inductive RLoc where
  | idle
  | enter (target peek : Bool) (len : BitVec 64)
  | copy (target peek : Bool) (len : BitVec 64) (done : List Nat) (tgt : Nat → Byte)
  | ub

/-- A completed `ring_buf_write`: source object, length argument, return value. -/
structure WDone where
  src : List Byte
  len : Nat
  ret : Nat

/-- A completed `ring_buf_read`/`_peek`/`_discard`: flags, length argument, return value, bytes in the target. -/
structure RDone where
  target : Bool
  peek : Bool
  len : Nat
  ret : Nat
  data : List Byte

/-- Global state; the logs list the completed calls of each thread in order. -/
structure Conf where
  ring : Ring
  w : WLoc
  r : RLoc
  wlog : List WDone
  rlog : List RDone

/-- The atomic steps.  An idle thread may make any call at any time. -/
inductive Step : Conf → Conf → Prop where
  /-- `ring_buf_write(handle, source, len)` with a source object of at least `len` bytes -/
  | wcall {s} (src : List Byte) (len : BitVec 64) : s.w = .idle → len.toNat ≤ src.length →
      Step s { s with w := .enter src len }
  /-- src/ring/ring_buf.c:145-148: `return 0` -/
  | wrefuse {s src len} : s.w = .enter src len → (0#64 = len ∨ availWrite s.ring < len) →
      Step s { s with w := .idle, wlog := s.wlog ++ [⟨src, len.toNat, 0⟩] }
  /-- src/ring/ring_buf.c:145: the load of `offset_read` by a call that goes on -/
  | wbegin {s src len} : s.w = .enter src len → ¬(0#64 = len ∨ availWrite s.ring < len) →
      Step s { s with w := .copy src len [] }
  /-- one byte of the `memcpy`s, src/ring/ring_buf.c:155, 171 -/
  | wcopy {s src len done} (i : Nat) (b : Byte) (m : Mem) : s.w = .copy src len done → i < len.toNat →
      src[i]? = some b → s.ring.pbuf.store (byteAddr s.ring.size s.ring.offWrite len i) [b] = some m →
      Step s { s with ring := { s.ring with pbuf := m }, w := .copy src len (i :: done) }
  /-- a byte copy that leaves the source or the ring object -/
  | wub {s src len done} (i : Nat) : s.w = .copy src len done → i < len.toNat →
      (src[i]? = none ∨ ∃ b, s.ring.pbuf.store (byteAddr s.ring.size s.ring.offWrite len i) [b] = none) →
      Step s { s with w := .ub }
  /-- the store to `offset_write` and the return, src/ring/ring_buf.c:167, 172, 174 -/
  | wpub {s src len done} : s.w = .copy src len done → (∀ i < len.toNat, i ∈ done) →
      Step s { s with ring := { s.ring with offWrite := newOffset s.ring.size s.ring.offWrite len }, w := .idle,
                      wlog := s.wlog ++ [⟨src, len.toNat, len.toNat⟩] }
  /-- `ring_buf_read`, `ring_buf_peek`, `ring_buf_discard`, src/ring/ring_buf.c:128-141 -/
  | rcall {s} (target peek : Bool) (len : BitVec 64) : s.r = .idle → Step s { s with r := .enter target peek len }
  /-- src/ring/ring_buf.c:87-90: `return 0` -/
  | rrefuse {s t pk len} : s.r = .enter t pk len → (len = 0#64 ∨ availRead s.ring < len) →
      Step s { s with r := .idle, rlog := s.rlog ++ [⟨t, pk, len.toNat, 0, []⟩] }
  /-- src/ring/ring_buf.c:87: the load of `offset_write` by a call that goes on -/
  | rbegin {s t pk len} : s.r = .enter t pk len → ¬(len = 0#64 ∨ availRead s.ring < len) →
      Step s { s with r := .copy t pk len [] (fun _ => 0) }
  /-- one byte of the `memcpy`s, src/ring/ring_buf.c:95-98, 104-107 -/
  | rcopy {s pk len done tgt} (i : Nat) (b : Byte) : s.r = .copy true pk len done tgt → i < len.toNat →
      s.ring.pbuf[byteAddr s.ring.size s.ring.offRead len i]? = some b →
      Step s { s with r := .copy true pk len (i :: done) (fun j => if j = i then b else tgt j) }
  /-- a byte load outside the ring object -/
  | rub {s pk len done tgt} (i : Nat) : s.r = .copy true pk len done tgt → i < len.toNat →
      s.ring.pbuf[byteAddr s.ring.size s.ring.offRead len i]? = none → Step s { s with r := .ub }
  /-- `if (!is_peek) offset_read = ...; return len`, src/ring/ring_buf.c:108-125 -/
  | rpub {s t pk len done tgt} : s.r = .copy t pk len done tgt → (t = true → ∀ i < len.toNat, i ∈ done) →
      Step s { s with ring := { s.ring with
                                offRead := if pk then s.ring.offRead else newOffset s.ring.size s.ring.offRead len },
                      r := .idle,
                      rlog := s.rlog ++
                        [⟨t, pk, len.toNat, len.toNat, if t then (List.range len.toNat).map tgt else []⟩] }

/-- Both threads idle on a ring just made by `ring_buf_create_with_mem` in an object of at least the size passed. -/
def Init (s : Conf) : Prop :=
  (∃ (mem : Mem) (n : BitVec 64), RingBuf.createWithMem (some mem) n = some s.ring ∧ n.toNat ≤ mem.length ∧
    n.toNat ≤ 2 ^ 63) ∧ s.w = .idle ∧ s.r = .idle ∧ s.wlog = [] ∧ s.rlog = []

/-- any number of steps in any interleaving -/
inductive Steps : Conf → Conf → Prop where
  | refl (s) : Steps s s
  | step {s t u} : Steps s t → Step t u → Steps s u

/-- reachable from a fresh ring -/
def Reach (s : Conf) : Prop := ∃ s0, Init s0 ∧ Steps s0 s

/-- `ring_buf_clear` called by the reader thread, src/ring/ring_buf.c:177-180, between its other calls.  Its two stores
are one step here.  Only used to show that it must not run concurrently with a write. -/
inductive ClearStep : Conf → Conf → Prop where
  | mk {s} : s.r = .idle → ClearStep s { s with ring := RingBuf.clear s.ring }

end Verif.RingBufSpsc
