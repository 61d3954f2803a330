import Verif.AutoCoverMt.Model
import Verif.AutoCover.Props
import Verif.Common.LockedLive
/-! # Theorems: `auto_cover_buf` with a lock, under threads -/
namespace Verif.AutoCoverMt
open Verif.Locked
open Verif.RingBuffer (Ring takeMin copyIn copyOut)
open Verif.AutoCover (Op Out errCovered errNotEnough)

/-! ### The pieces of a call, run alone, are the sequential call -/

theorem exec_availRead (r : Ring) : exec availRead r = some (r, RingBuffer.availRead r) := rfl
theorem exec_availWrite (r : Ring) : exec availWrite r = some (r, RingBuffer.availWrite r) := rfl
theorem exec_advance (n : BitVec 32) (r : Ring) : exec (advance n) r = some ({ r with out := r.out + n }, ()) := rfl

theorem exec_discard (n : BitVec 32) (r : Ring) :
    exec (discard n) r = (RingBuffer.discard r n).map fun t => (t.1, ()) := by
  unfold discard RingBuffer.discard RingBuffer.readInternal
  by_cases h : n = 0#32
  · rw [if_pos h, if_pos h]; rfl
  · rw [if_neg h, if_neg h, exec_bind, exec_availRead, Option.bind_some]
    simp only
    by_cases h2 : RingBuffer.availRead r = 0#32
    · rw [if_pos h2, if_pos h2]; rfl
    · rw [if_neg h2, if_neg h2, exec_advance]; rfl

theorem exec_ringRead (n : BitVec 32) (r : Ring) :
    exec (ringRead n) r = (RingBuffer.read r true n).map fun t => (t.1, t.2.1, t.2.2) := by
  unfold ringRead RingBuffer.read RingBuffer.readInternal
  simp only [if_true]
  by_cases h : n = 0#32
  · rw [if_pos h, if_pos h]; rfl
  · rw [if_neg h, if_neg h, exec_bind, exec_availRead, Option.bind_some]
    simp only
    by_cases h2 : RingBuffer.availRead r = 0#32
    · rw [if_pos h2, if_pos h2]; rfl
    · rw [if_neg h2, if_neg h2]
      simp only [exec_bind, rdOut, rdSize, exec_read, Option.bind_some, exec_tryRead, exec_advance, exec_pure]
      cases copyOut r.buf (r.out &&& r.size - 1#32).toNat
          (takeMin (takeMin n (RingBuffer.availRead r)) (r.size - (r.out &&& r.size - 1#32))).toNat with
      | none => rfl
      | some a =>
        simp only [Option.map_some, Option.bind_some, Option.bind_eq_bind]
        cases copyOut r.buf 0
            (takeMin n (RingBuffer.availRead r) -
              takeMin (takeMin n (RingBuffer.availRead r)) (r.size - (r.out &&& r.size - 1#32))).toNat with
        | none => rfl
        | some b => rfl

theorem exec_ringWrite (src : List Byte) (n : BitVec 32) (r : Ring) :
    exec (ringWrite src n) r = RingBuffer.write r (some src) n := by
  unfold ringWrite RingBuffer.write
  simp only
  by_cases h : n = 0#32
  · rw [if_pos h, if_pos h]; rfl
  · rw [if_neg h, if_neg h, exec_bind, exec_availWrite, Option.bind_some]
    simp only
    by_cases h2 : RingBuffer.availWrite r = 0#32
    · rw [if_pos h2, if_pos h2]; rfl
    · rw [if_neg h2, if_neg h2]
      simp only [exec_bind, rdIn, rdSize, exec_read, Option.bind_some, exec_change, exec_pure]
      cases copyIn r.buf (r.inp &&& r.size - 1#32).toNat src 0
          (takeMin (takeMin n (RingBuffer.availWrite r)) (r.size - (r.inp &&& r.size - 1#32))).toNat with
      | none => rfl
      | some a =>
        simp only [Option.map_some, Option.bind_some, Option.bind_eq_bind]
        cases copyIn a 0 src
            (takeMin (takeMin n (RingBuffer.availWrite r)) (r.size - (r.inp &&& r.size - 1#32))).toNat
            (takeMin n (RingBuffer.availWrite r) -
              takeMin (takeMin n (RingBuffer.availWrite r)) (r.size - (r.inp &&& r.size - 1#32))).toNat with
        | none => rfl
        | some b => rfl

theorem exec_internalRead (pos : BitVec 32) (target : Bool) (req : BitVec 32) (r : Ring) :
    exec (internalRead pos target req) r =
      (AutoCover.internalRead r pos target req).map fun t => (t.1, t.2.1, t.2.2) := by
  unfold internalRead AutoCover.internalRead
  simp only [exec_bind, rdIn, rdOut, rdSize, exec_read, Option.bind_some, exec_availRead, exec_check]
  have hc : canReadOf r.size (RingBuffer.availRead r) r.inp r.out pos = AutoCover.canRead r pos := rfl
  rw [hc]
  by_cases h : AutoCover.canRead r pos ≤ (RingBuffer.availRead r).toInt
  · simp only [h, decide_true, if_true, Option.bind_some, not_true_eq_false, if_false]
    by_cases h2 : target = true ∧ req.toInt ≤ AutoCover.canRead r pos
    · rw [if_pos h2, if_pos h2]
      simp only [exec_bind, exec_discard, exec_ringRead, exec_check, exec_pure, AutoCover.skipBytes]
      by_cases h3 : RingBuffer.availRead r - BitVec.ofInt 32 (AutoCover.canRead r pos) = 0#32
      · rw [h3]
        simp only [RingBuffer.discard, RingBuffer.readInternal, if_true, Option.map_some, Option.bind_some, ne_eq,
          not_true_eq_false, if_false, Option.bind_eq_bind]
        cases RingBuffer.read r true req with
        | none => rfl
        | some t =>
          simp only [Option.map_some, Option.bind_some]
          by_cases h4 : t.2.1 = req <;> simp [h4]
      · simp only [ne_eq, h3, not_false_eq_true, if_true, Option.bind_eq_bind]
        cases RingBuffer.discard r (RingBuffer.availRead r - BitVec.ofInt 32 (AutoCover.canRead r pos)) with
        | none => rfl
        | some d =>
          simp only [Option.map_some, Option.bind_some]
          cases RingBuffer.read d.1 true req with
          | none => rfl
          | some t =>
            simp only [Option.map_some, Option.bind_some]
            by_cases h4 : t.2.1 = req <;> simp [h4]
    · rw [if_neg h2, if_neg h2]; rfl
  · simp only [h, decide_false, Bool.false_eq_true, if_false, Option.bind_none, not_false_eq_true, if_true,
      Option.map_none]

theorem exec_write (src : List Byte) (len : BitVec 32) (r : Ring) :
    exec (write src len) r = AutoCover.write r src len := by
  unfold write AutoCover.write AutoCover.makeRoom
  simp only [exec_bind, exec_availWrite, Option.bind_some]
  by_cases h : RingBuffer.availWrite r < len
  · simp only [if_pos h, exec_bind, exec_discard, exec_ringWrite, exec_check, exec_pure]
    cases RingBuffer.discard r (len - RingBuffer.availWrite r) with
    | none => rfl
    | some d =>
      simp only [Option.map_some, Option.bind_some, Option.bind_eq_bind]
      cases RingBuffer.write d.1 (some src) len with
      | none => rfl
      | some t => simp only [Option.bind_some]; by_cases h4 : t.2 = len <;> simp [h4]
  · simp only [if_neg h, exec_bind, exec_ringWrite, exec_check, exec_pure, Option.bind_some, Option.bind_eq_bind]
    cases RingBuffer.write r (some src) len with
    | none => rfl
    | some t => simp only [Option.bind_some]; by_cases h4 : t.2 = len <;> simp [h4]

theorem exec_body (op : Op) (r : Ring) : exec (body op) r = AutoCover.step r op := by
  cases op with
  | write s l =>
    simp only [body, exec_bind, exec_write, exec_pure, AutoCover.step]
    cases AutoCover.write r s l <;> rfl
  | read p q =>
    simp only [body, exec_bind, exec_internalRead, AutoCover.step, AutoCover.read]
    cases AutoCover.internalRead r (BitVec.ofNat 32 p) true q with
    | none => rfl
    | some t =>
      simp only [Option.map_some, Option.bind_some, Option.bind_eq_bind]
      by_cases h1 : t.2.1 < 0
      · simp only [if_pos h1]; rfl
      · by_cases h2 : t.2.1 < q.toInt
        · simp only [if_neg h1, if_pos h2]; rfl
        · simp only [if_neg h1, if_neg h2]; rfl
  | avail p =>
    simp only [body, exec_bind, exec_internalRead, exec_pure, AutoCover.step, AutoCover.availableRead]
    cases AutoCover.internalRead r (BitVec.ofNat 32 p) false 0#32 <;> rfl

/-! ### Theorems -/

theorem seqRun_eq (r : Ring) (ops : List Op) : seqRun AutoCover.step r ops = AutoCover.run r ops := by
  induction ops generalizing r with
  | nil => rfl
  | cons o os ih =>
    simp only [seqRun, AutoCover.run, Option.bind_eq_bind]
    cases AutoCover.step r o with
    | none => rfl
    | some t =>
      simp only [Option.bind_some, ih]
      cases AutoCover.run t.1 os <;> rfl

/-- However many threads use one buffer and however they are interleaved: the calls have the results of the same calls
made one after the other, each of them at some moment between its invocation and its return. -/
theorem calls_linearizable {r : Ring} {n : Nat} {x : Sys Ring Op Out} (h : Reach body r n x) :
    (∃ r', AutoCover.run r ((points x.trace).map (·.1)) = some (r', (points x.trace).map (·.2)) ∧ (x.lock = none → x.st = r')) ∧
    ∀ i, i < x.ths.length → Calls i (own i x.trace) := by
  have := linearizable exec_body h
  simpa only [seqRun_eq] using this

/-- So they are what the sliding window over everything written says, in that order, as long as the calls
keep the caller's obligations in that order. -/
theorem window_linearizable {calloc : BitVec 32 → Option Mem} (hc : RingBuffer.CallocOk calloc) {c : BitVec 32} {r : Ring}
    (h3 : 3 ≤ c.toNat) (h30 : c.toNat ≤ 2 ^ 30) (hr : AutoCover.create calloc c = some (some r)) {n : Nat}
    {x : Sys Ring Op Out} (h : Reach body r n x)
    (hv : AutoCover.Spec.ValidRun r.size.toNat ⟨[], 0⟩ ((points x.trace).map (·.1))) :
    (points x.trace).map (·.2) = (AutoCover.Spec.run r.size.toNat ⟨[], 0⟩ ((points x.trace).map (·.1))).2 := by
  obtain ⟨⟨r', h1, _⟩, _⟩ := calls_linearizable h
  have := AutoCover.refines_window hc h3 h30 hr _ hv
  rw [h1] at this
  simpa using this

/-- And no call does anything undefined or aborts. -/
theorem no_fault {calloc : BitVec 32 → Option Mem} (hc : RingBuffer.CallocOk calloc) {c : BitVec 32} {r : Ring}
    (h3 : 3 ≤ c.toNat) (h30 : c.toNat ≤ 2 ^ 30) (hr : AutoCover.create calloc c = some (some r)) {n : Nat}
    {x : Sys Ring Op Out} (h : Reach body r n x)
    (hv : ∀ (i : Nat) (op : Op) (p : Prog Ring Out), x.ths[i]? = some (Th.inside op p) →
      AutoCover.Spec.ValidRun r.size.toNat ⟨[], 0⟩ ((points x.trace).map (·.1) ++ [op])) : ¬ Step body x none := by
  intro hs
  obtain ⟨i, op, p, hi, he⟩ := fault_sequential exec_body h hs
  have := AutoCover.refines_window hc h3 h30 hr _ (hv i op p hi)
  rw [seqRun_eq] at he
  rw [he] at this
  cases this

/-- No deadlock. -/
theorem never_stuck {r : Ring} {n : Nat} {x : Sys Ring Op Out} (h : Reach body r n x) {i : Nat} {t : Th Ring Op Out}
    (hi : x.ths[i]? = some t) (ht : t ≠ .idle) :
    ∃ (j : Nat) (u : Th Ring Op Out) (y : Option (Sys Ring Op Out)), x.ths[j]? = some u ∧ u ≠ Th.idle ∧ Step body x y ∧
      ∀ z, y = some z → ∃ u', z.ths = x.ths.set j u' :=
  progress exec_body h hi ht

/-- Every call returns, in every fair infinite execution (a thread that can go on again and again goes on) in which the calls
keep the caller's obligations, even if the threads begin new calls for ever. -/
theorem every_call_returns {calloc : BitVec 32 → Option Mem} (hc : RingBuffer.CallocOk calloc) {c : BitVec 32} {r : Ring}
    (h3 : 3 ≤ c.toNat) (h30 : c.toNat ≤ 2 ^ 30) (hr : AutoCover.create calloc c = some (some r)) {n : Nat}
    {x : Fair.Exec (LStep body)} (h0 : Reach body r n (x.st 0)) (fair : FairRun x)
    (hv : ∀ (k i : Nat) (op : Op) (p : Prog Ring Out), (x.st k).ths[i]? = some (Th.inside op p) →
      AutoCover.Spec.ValidRun r.size.toNat ⟨[], 0⟩ ((points (x.st k).trace).map (·.1) ++ [op]))
    {k i : Nat} {t : Th Ring Op Out} (hi : (x.st k).ths[i]? = some t) (ht : t ≠ .idle) :
    ∃ m o, k ≤ m ∧ (x.st m).ths[i]? = some (.left o) ∧ x.lab m = some (i, none) ∧ (x.st (m + 1)).ths[i]? = some .idle :=
  returns (fun k => no_fault hc h3 h30 hr (run_reach h0 k) (hv k)) h0 fair hi ht

/-! ### Examples -/

/-- One move: thread `i` calls `op` (if given), or goes on. -/
def move (x : Sys Ring Op Out) : Nat × Option Op → Option (Sys Ring Op Out)
  | (i, some op) => match x.ths[i]? with
    | some .idle => some { x with
        ths := x.ths.set i (.wants op)
        trace := x.trace ++ [.call i op] }
    | _ => none
  | (i, none) => match x.ths[i]? with
    | some (.wants op) => if x.lock = none then some { x with
        ths := x.ths.set i (.inside op (body op))
        lock := some i } else none
    | some (.inside op (.act f k)) => (f x.st).map fun s => { x with
        st := s
        ths := x.ths.set i (.inside op (k x.st)) }
    | some (.inside op (.ret o)) => some { x with
        ths := x.ths.set i (.left o)
        lock := none
        trace := x.trace ++ [.point i op o] }
    | some (.left o) => some { x with
        ths := x.ths.set i .idle
        trace := x.trace ++ [.ret i o] }
    | _ => none

theorem move_step {x y : Sys Ring Op Out} {mv : Nat × Option Op} (h : move x mv = some y) : Step body x (some y) := by
  obtain ⟨i, op⟩ := mv
  cases op with
  | some op =>
    simp only [move] at h
    split at h
    · cases h; exact .call i op (by assumption)
    · cases h
  | none =>
    simp only [move] at h
    split at h
    · rename_i op hi
      split at h
      · cases h; exact .acquire i op hi (by assumption)
      · cases h
    · rename_i op f k hi
      rw [Option.map_eq_some_iff] at h
      obtain ⟨s, e, rfl⟩ := h
      exact .piece i op f k s hi e
    · rename_i op o hi
      cases h; exact .release i op o hi
    · rename_i o hi
      cases h; exact .ret i o hi
    · cases h

/-- A schedule; moves that are not possible are skipped. -/
def play (x : Sys Ring Op Out) : List (Nat × Option Op) → Sys Ring Op Out
  | [] => x
  | mv :: mvs => play ((move x mv).getD x) mvs

theorem play_reach {r : Ring} {n : Nat} {mvs : List (Nat × Option Op)} : ∀ {x : Sys Ring Op Out}, Reach body r n x →
    Reach body r n (play x mvs) := by
  induction mvs with
  | nil => intro x h; exact h
  | cons mv mvs ih =>
    intro x h
    unfold play
    apply ih
    cases e : move x mv with
    | none => exact h
    | some z => exact h.step x z (move_step e)

/-- A ring of 8 bytes. -/
def ring8 : Ring := ⟨0#32, 0#32, 8#32, List.replicate 8 0⟩

/-- Thread 0 writes 6 bytes; while it is inside, thread 1 wants to write 5 and thread 2 to read 3 from position 4. -/
def demo : List (Nat × Option Op) :=
  [(0, some (.write [1, 2, 3, 4, 5, 6] 6#32)), (0, none), (0, none), (1, some (.write [7, 8, 9, 10, 11] 5#32)), (1, none), (0, none)] ++
  List.replicate 20 (0, none) ++ [(1, none), (2, some (.read 4 3#32)), (2, none)] ++ List.replicate 30 (1, none) ++
  List.replicate 30 (2, none)

/-- What can be compared. -/
def view (x : Sys Ring Op Out) : List (Nat × Nat × Option Out) := x.trace.map fun
  | .call i _ => (0, i, none)
  | .point i _ o => (1, i, some o)
  | .ret i o => (2, i, some o)

/-- Invocations overlap (0: invocation, 1: point, 2: return); results are those of one order. -/
example : view (play ⟨ring8, List.replicate 3 .idle, none, []⟩ demo) =
    [(0, 0, none), (0, 1, none), (1, 0, some ⟨6, []⟩), (2, 0, some ⟨6, []⟩), (0, 2, none), (1, 1, some ⟨5, []⟩),
     (2, 1, some ⟨5, []⟩), (1, 2, some ⟨3, [5, 6, 7]⟩), (2, 2, some ⟨3, [5, 6, 7]⟩)] := by
  decide +kernel

example : Reach body ring8 3 (play ⟨ring8, List.replicate 3 .idle, none, []⟩ demo) := play_reach .start

/-! ### Without a lock -/

/-- Two calls with no lock (`buf_lock` NULL): a schedule says whose piece comes next (`true`: the first). -/
def unlocked : Prog Ring Out → Prog Ring Out → List Bool → Ring → Option (Ring × Prog Ring Out × Prog Ring Out)
  | p, q, [], r => some (r, p, q)
  | .act f k, q, true :: bs, r => (f r).bind fun r' => unlocked (k r) q bs r'
  | .ret a, q, true :: bs, r => unlocked (.ret a) q bs r
  | p, .act f k, false :: bs, r => (f r).bind fun r' => unlocked p (k r) bs r'
  | p, .ret b, false :: bs, r => unlocked p (.ret b) bs r

/-- The results, if both have ended, and the bytes that can be read afterwards. -/
def outcome : Option (Ring × Prog Ring Out × Prog Ring Out) → Option (Out × Out × Nat)
  | some (r, .ret a, .ret b) => some (a, b, (RingBuffer.availRead r).toNat)
  | _ => none

/-- A full ring: eight zero bytes were written. -/
def full8 : Ring := ⟨8#32, 0#32, 8#32, List.replicate 8 0⟩

/-- `k` pieces of the first call, then the whole second call, then the rest of the first. -/
def amid (k : Nat) : List Bool := List.replicate k true ++ List.replicate 30 false ++ List.replicate 20 true

/-- The lock is needed.  One thread reads the 8 stored bytes while another writes 4.  One after the other, the reader gets the
eight old bytes (if it comes first) or -4, not enough bytes (if it comes second).  Without a lock there is an
interleaving in which it reports success with half new, half old bytes, and one in which the program aborts. -/
theorem lock_needed :
    (AutoCover.run full8 [.read 0 8#32, .write [1, 2, 3, 4] 4#32]).map (·.2) = some [⟨8, List.replicate 8 0⟩, ⟨4, []⟩] ∧
    (AutoCover.run full8 [.write [1, 2, 3, 4] 4#32, .read 0 8#32]).map (·.2) = some [⟨4, []⟩, ⟨errNotEnough, []⟩] ∧
    (outcome (unlocked (body (.read 0 8#32)) (body (.write [1, 2, 3, 4] 4#32)) (amid 9) full8)).map (fun t => (t.1, t.2.1)) =
      some (⟨8, [1, 2, 3, 4, 0, 0, 0, 0]⟩, ⟨4, []⟩) ∧
    (unlocked (body (.read 0 8#32)) (body (.write [1, 2, 3, 4] 4#32)) (amid 7) full8).isNone = true := by
  refine ⟨?_, ?_, ?_, ?_⟩ <;> decide +kernel

/-- A fair execution in which, at some time, two threads are in a call. -/
example : ∃ x : Fair.Exec (LStep body), Reach body ring8 3 (x.st 0) ∧ FairRun x ∧
    ∃ k, busy (x.st k).ths[0]? = true ∧ busy (x.st k).ths[1]? = true := by
  obtain ⟨x, h0, hf, k, hk⟩ := play_fair (body := body) (s := ⟨ring8, List.replicate 3 .idle, none, []⟩) (demo.take 4) (demo.drop 4) (by
    rw [List.take_append_drop]; decide +kernel)
  refine ⟨x, by rw [h0]; exact .start, hf, k, ?_⟩
  rw [hk]
  decide +kernel

end Verif.AutoCoverMt
