import Verif.AutoCover.Lemmas
/-!
# Theorems about `autocover_buffer.c` (C14, C15, C16)
-/
namespace Verif.AutoCover
open RingBuffer (Ring)

/-- The concrete ring `r` represents the window `s`. -/
structure Rel (cap : Nat) (s : Spec.St) (r : Ring) : Prop where
  inv : RingBuffer.Inv r
  cap_eq : r.size.toNat = cap
  cap_le : cap ≤ 2 ^ 30
  inp : r.inp.toNat = s.all.length % 2 ^ 32
  lo : s.lo ≤ s.all.length
  win : RingBuffer.abs r = s.all.drop s.lo

theorem Rel.held {cap s r} (h : Rel cap s r) : s.all.length - s.lo = (RingBuffer.availRead r).toNat := by
  rw [← RingBuffer.abs_length, h.win, List.length_drop]

theorem Rel.held_le {cap s r} (h : Rel cap s r) : s.all.length - s.lo ≤ cap := by
  have := h.inv.used
  rw [h.held, ← h.cap_eq]; exact this

theorem mod_sub_mod (s l d : Nat) (hs : 0 < s) : ((l + d) % s + s - l % s) % s = d % s := by
  have h1 := Nat.div_add_mod l s
  have h2 := Nat.div_add_mod (l + d) s
  have b1 := Nat.mod_lt l hs
  have hle : l / s ≤ (l + d) / s := Nat.div_le_div_right (by omega)
  obtain ⟨k, hk⟩ := Nat.exists_eq_add_of_le hle
  have hm : s * ((l + d) / s) = s * (l / s) + s * k := by rw [hk, Nat.mul_add]
  -- (l+d)%s + s - l%s + s*k = d + s
  have e : ((l + d) % s + s - l % s) + s * k = d + s := by omega
  have := congrArg (· % s) e
  simpa using this

theorem Rel.out_mod {cap s r} (h : Rel cap s r) : r.out.toNat % cap = s.lo % cap := by
  have hd : cap ∣ 2 ^ 32 := by rw [← h.cap_eq]; exact h.inv.dvd
  have ho : r.out = r.inp - RingBuffer.availRead r := by
    conv => rhs; rw [RingBuffer.in_eq r]
    apply BitVec.eq_of_toNat_eq
    rw [BitVec.toNat_sub, BitVec.toNat_add]; omega
  have e : r.out.toNat = s.lo % 2 ^ 32 := by
    have hh := h.held
    have := h.lo
    have := h.inp
    rw [ho, BitVec.toNat_sub]
    omega
  rw [e, Nat.mod_mod_of_dvd _ hd]

theorem Rel.dist_ge {cap s r} (h : Rel cap s r) (p : Nat) (hp : s.lo ≤ p) :
    dist r (BitVec.ofNat 32 p) = (p - s.lo) % cap := by
  have hd : cap ∣ 2 ^ 32 := by rw [← h.cap_eq]; exact h.inv.dvd
  have h2 := h.inv.pos
  unfold dist
  rw [h.cap_eq] at h2 ⊢
  rw [h.out_mod, BitVec.toNat_ofNat, Nat.mod_mod_of_dvd _ hd]
  obtain ⟨d, rfl⟩ := Nat.exists_eq_add_of_le hp
  rw [mod_sub_mod _ _ _ (by omega)]
  congr 1; omega

/-- a position and its alias one or more capacities further are indistinguishable -/
theorem Rel.dist_alias {cap s r} (h : Rel cap s r) (p k : Nat) :
    dist r (BitVec.ofNat 32 (p + k * cap)) = dist r (BitVec.ofNat 32 p) := by
  have hd : cap ∣ 2 ^ 32 := by rw [← h.cap_eq]; exact h.inv.dvd
  unfold dist
  rw [h.cap_eq, BitVec.toNat_ofNat, BitVec.toNat_ofNat, Nat.mod_mod_of_dvd _ hd, Nat.mod_mod_of_dvd _ hd,
    Nat.add_mul_mod_self_right]

theorem step_refines {cap s r} (h : Rel cap s r) (o : Op) (hv : Spec.Valid cap s o) :
    ∃ r', step r o = some (r', (Spec.step cap s o).2) ∧ Rel cap (Spec.step cap s o).1 r' := by
  have hle := h.held_le
  have hheld := h.held
  have hlo := h.lo
  have hcap := h.cap_le
  have h30 : r.size.toNat ≤ 2 ^ 30 := by rw [h.cap_eq]; exact hcap
  cases o with
  | write src len =>
    obtain ⟨h1, h2⟩ := hv
    obtain ⟨r', e, i, hs, hi, ha⟩ := write_live h.inv src len h1 (by rw [h.cap_eq]; exact h2) h30
    refine ⟨r', by simp only [step, e]; rfl, i, by rw [hs, h.cap_eq], hcap, ?_, ?_, ?_⟩
    · rw [hi, BitVec.toNat_add, h.inp]; simp [Spec.step, List.length_take]; omega
    · simp only [Spec.step, List.length_append, List.length_take]; omega
    · rw [ha, h.win, h.cap_eq]
      simp only [Spec.step, List.length_append, List.length_take, List.length_drop, List.drop_drop]
      rw [List.drop_append_of_le_length (by omega)]
      congr 2
      omega
  | read p req =>
    obtain ⟨h1, h2, h3⟩ := hv
    have hdist : dist r (BitVec.ofNat 32 p) = p - s.lo := by
      rw [h.dist_ge p h1, Nat.mod_eq_of_lt (by omega)]
    have hlen : (RingBuffer.abs r).length = s.all.length - s.lo := by rw [h.win, List.length_drop]
    obtain ⟨r', e, i, hs, hi, ha⟩ := internalRead_live h.inv h30 (BitVec.ofNat 32 p)
      (by rw [hdist, hlen]; omega) true req h3
    have hqi : req.toInt = (req.toNat : Int) := BitVec.toInt_eq_toNat_of_lt (by omega)
    rw [hdist, hlen] at e ha
    by_cases hc : req.toNat ≤ s.all.length - p
    · rw [if_pos ⟨rfl, by omega⟩] at e ha
      refine ⟨r', ?_, i, by rw [hs, h.cap_eq], hcap, by rw [hi, h.inp]; simp [Spec.step, hc], ?_, ?_⟩
      · simp only [step, read, e, Spec.step, if_pos hc]
        have n1 : ¬ ((s.all.length - s.lo - (p - s.lo) : Nat) : Int) < 0 := by omega
        have n2 : ¬ ((s.all.length - s.lo - (p - s.lo) : Nat) : Int) < req.toInt := by omega
        have hpl : s.lo + (p - s.lo) = p := by omega
        simp only [Option.bind_eq_bind, Option.bind_some, if_neg n1, if_neg n2]
        simp [hqi, h.win, List.drop_drop, hpl]
      · simp only [Spec.step, if_pos hc]; omega
      · simp only [Spec.step, if_pos hc, ha, h.win, List.drop_drop]
        congr 1; omega
    · rw [if_neg (by omega)] at e ha
      refine ⟨r', ?_, ?_⟩
      · simp only [step, read, e, Spec.step, if_neg hc]
        have n1 : ¬ ((s.all.length - s.lo - (p - s.lo) : Nat) : Int) < 0 := by omega
        have n2 : ((s.all.length - s.lo - (p - s.lo) : Nat) : Int) < req.toInt := by omega
        simp [n1, n2]
      · simp only [Spec.step, if_neg hc]
        exact ⟨i, by rw [hs, h.cap_eq], hcap, by rw [hi, h.inp], hlo, by rw [ha, h.win]⟩
  | avail p =>
    obtain ⟨h1, h2⟩ := hv
    have hdist : dist r (BitVec.ofNat 32 p) = p - s.lo := by
      rw [h.dist_ge p h1, Nat.mod_eq_of_lt (by omega)]
    have hlen : (RingBuffer.abs r).length = s.all.length - s.lo := by rw [h.win, List.length_drop]
    obtain ⟨r', e, i, hs, hi, ha⟩ := internalRead_live h.inv h30 (BitVec.ofNat 32 p)
      (by rw [hdist, hlen]; omega) false 0#32 (by decide)
    rw [hdist, hlen] at e
    simp only [Bool.false_eq_true, false_and, if_false] at ha
    refine ⟨r', ?_, i, by rw [hs, h.cap_eq], hcap, by rw [hi, h.inp]; rfl, hlo, by rw [ha, h.win]; rfl⟩
    simp only [step, availableRead, e, Spec.step]
    rw [show s.all.length - s.lo - (p - s.lo) = s.all.length - p by omega]
    rfl

theorem run_refines {cap s r} (h : Rel cap s r) (os : List Op) (hv : Spec.ValidRun cap s os) :
    ∃ r', run r os = some (r', (Spec.run cap s os).2) ∧ Rel cap (Spec.run cap s os).1 r' := by
  induction os generalizing s r with
  | nil => exact ⟨r, rfl, h⟩
  | cons o os ih =>
    obtain ⟨r1, e1, h1⟩ := step_refines h o hv.1
    obtain ⟨r2, e2, h2⟩ := ih h1 hv.2
    exact ⟨r2, by simp [run, e1, e2, Spec.run], h2⟩

theorem create_inp {calloc : BitVec 32 → Option Mem} {n : BitVec 32} {r : Ring}
    (hr : create calloc n = some (some r)) : r.inp = 0#32 := by
  have aux : ∀ (m : Option Mem) k, RingBuffer.createWithMem m k = some (some r) → r.inp = 0#32 := by
    intro m k h
    unfold RingBuffer.createWithMem at h
    split at h
    · simp at h
    · split at h
      · simp at h
      · simp only at h
        split at h
        · simp at h; rw [← h]
        · split at h
          · simp at h
          · simp at h; rw [← h]
  unfold create RingBuffer.create at hr
  split at hr
  · simp at hr
  · split at hr
    · simp at hr
    · simp only at hr
      split at hr
      · simp at hr
      · exact aux _ _ hr

/-- A freshly created buffer represents the empty window, whatever its capacity. -/
theorem rel_create {calloc : BitVec 32 → Option Mem} (hc : RingBuffer.CallocOk calloc) {n : BitVec 32} {r : Ring}
    (h3 : 3 ≤ n.toNat) (h30 : n.toNat ≤ 2 ^ 30) (hr : create calloc n = some (some r)) :
    Rel r.size.toNat ⟨[], 0⟩ r := by
  rcases RingBuffer.create_spec hc n h3 h30 with h | ⟨r0, h, i, a, _, h5⟩
  · rw [create, h] at hr; simp at hr
  · have hr0 := hr
    rw [create, h] at hr
    simp only [Option.some.injEq] at hr
    subst hr
    refine ⟨i, rfl, ?_, by rw [create_inp hr0]; rfl, Nat.le_refl _, a⟩
    obtain ⟨k, k1, k2, e⟩ := i.pow
    rw [e] at h5 ⊢
    apply Nat.pow_le_pow_right (by omega)
    by_cases hk : k ≤ 30
    · exact hk
    · have : k = 31 := by omega
      subst this; omega

/-- **C14/C15**.  For every capacity, allocator and history of calls meeting the obligations of `Spec.Valid`, no
call aborts or goes out of bounds, and every return value and every byte delivered is the one of the sliding-window
specification: writes always succeed and evict only the oldest bytes, reads deliver the stream bytes at the requested
position. -/
theorem refines_window {calloc : BitVec 32 → Option Mem} (hc : RingBuffer.CallocOk calloc) {n : BitVec 32} {r : Ring}
    (h3 : 3 ≤ n.toNat) (h30 : n.toNat ≤ 2 ^ 30) (hr : create calloc n = some (some r))
    (os : List Op) (hv : Spec.ValidRun r.size.toNat ⟨[], 0⟩ os) :
    (run r os).map (·.2) = some (Spec.run r.size.toNat ⟨[], 0⟩ os).2 := by
  obtain ⟨r', e, -⟩ := run_refines (rel_create hc h3 h30 hr) os hv
  rw [e]; rfl

/-- States reachable by calls meeting the obligations: a created buffer, the concrete ring and its ghost window. -/
inductive Reach (calloc : BitVec 32 → Option Mem) : Nat → Spec.St → Ring → Prop where
  | create {n r} : 3 ≤ n.toNat → n.toNat ≤ 2 ^ 30 → create calloc n = some (some r) →
      Reach calloc r.size.toNat ⟨[], 0⟩ r
  | step {cap s r o r' x} : Reach calloc cap s r → Spec.Valid cap s o → step r o = some (r', x) →
      Reach calloc cap (Spec.step cap s o).1 r'

theorem Reach.rel {calloc : BitVec 32 → Option Mem} (hc : RingBuffer.CallocOk calloc) {cap s r}
    (h : Reach calloc cap s r) : Rel cap s r := by
  induction h with
  | create h3 h30 hr => exact rel_create hc h3 h30 hr
  | step _ hv hs ih =>
    obtain ⟨r2, e, h2⟩ := step_refines ih _ hv
    rw [e] at hs
    simp only [Option.some.injEq, Prod.mk.injEq] at hs
    rw [← hs.1]; exact h2

/-- **C14**: a write of any length up to the capacity succeeds in every reachable state, and afterwards the bytes held
are the newest write preceded by as many older unread bytes as fit. -/
theorem write_keeps_newest {calloc : BitVec 32 → Option Mem} (hc : RingBuffer.CallocOk calloc) {cap s r}
    (h : Reach calloc cap s r) (src : List Byte) (len : BitVec 32) (h1 : len.toNat ≤ src.length)
    (h2 : len.toNat ≤ cap) :
    ∃ r', write r src len = some (r', (len.toNat : Int)) ∧
      RingBuffer.abs r' = (RingBuffer.abs r).drop ((RingBuffer.abs r).length + len.toNat - cap) ++ src.take len.toNat := by
  have hr := h.rel hc
  obtain ⟨r', e, _, _, _, ha⟩ := write_live hr.inv src len h1 (by rw [hr.cap_eq]; exact h2)
    (by rw [hr.cap_eq]; exact hr.cap_le)
  exact ⟨r', e, by rw [ha, hr.cap_eq]⟩

/-- The obligation `len ≤ capacity` cannot be dropped: a longer write aborts the process (release builds too). -/
theorem write_over_capacity_aborts {calloc : BitVec 32 → Option Mem} (hc : RingBuffer.CallocOk calloc) {cap s r}
    (h : Reach calloc cap s r) (src : List Byte) (len : BitVec 32) (h1 : len.toNat ≤ src.length)
    (h2 : cap < len.toNat) : write r src len = none := by
  have hr := h.rel hc
  exact write_too_long hr.inv src len h1 (by rw [hr.cap_eq]; exact h2)

/-- **C15**: for a position inside the live window, `available_read` is the number of bytes from it to the newest one,
and `read` of a length not exceeding that delivers exactly the stream bytes at that position. -/
theorem read_at_position {calloc : BitVec 32 → Option Mem} (hc : RingBuffer.CallocOk calloc) {cap s r}
    (h : Reach calloc cap s r) (p : Nat) (hlo : s.lo ≤ p) (hhi : p < s.all.length) (req : BitVec 32)
    (hq : req.toNat < 2 ^ 31) :
    (availableRead r (BitVec.ofNat 32 p)).map (·.2) = some ((s.all.length - p : Nat) : Int) ∧
    (read r (BitVec.ofNat 32 p) req).map (·.2) =
      if req.toNat ≤ s.all.length - p then some ((req.toNat : Int), (s.all.drop p).take req.toNat)
      else some (errNotEnough, []) := by
  have hr := h.rel hc
  obtain ⟨r1, e1, -⟩ := step_refines hr (.avail p) ⟨hlo, hhi⟩
  obtain ⟨r2, e2, -⟩ := step_refines hr (.read p req) ⟨hlo, hhi, hq⟩
  constructor
  · simp only [step, Spec.step] at e1
    cases ha : availableRead r (BitVec.ofNat 32 p) with
    | none => rw [ha] at e1; simp at e1
    | some a => rw [ha] at e1; simp at e1; simp [e1.2]
  · simp only [step, Spec.step] at e2
    cases ha : read r (BitVec.ofNat 32 p) req with
    | none => rw [ha] at e2; simp at e2
    | some a =>
      rw [ha] at e2
      obtain ⟨a1, a2, a3⟩ := a
      split
      · next hle => simp [hle] at e2; simp [e2.2]
      · next hle => simp [hle] at e2; simp [e2.2]

/-! ## C16: what overwritten or consumed positions get -/

/-- **C16 (full statement is false).**  Whenever the buffer is full, *no* position is ever reported covered: for every
position `p` older than the window, `available_read` answers exactly as for the live position it aliases to. -/
theorem full_never_covered {calloc : BitVec 32 → Option Mem} (hc : RingBuffer.CallocOk calloc) {cap s r}
    (h : Reach calloc cap s r) (hfull : s.all.length - s.lo = cap) (p : Nat) :
    ∃ n : Int, (availableRead r (BitVec.ofNat 32 p)).map (·.2) = some n ∧ 0 < n := by
  have hr := h.rel hc
  have hcap := hr.cap_le
  have h30 : r.size.toNat ≤ 2 ^ 30 := by rw [hr.cap_eq]; exact hcap
  have hlen : (RingBuffer.abs r).length = cap := by rw [hr.win, List.length_drop]; exact hfull
  have hp := hr.inv.pos
  have hd : dist r (BitVec.ofNat 32 p) < (RingBuffer.abs r).length := by
    rw [hlen, ← hr.cap_eq]
    exact Nat.mod_lt _ (by omega)
  obtain ⟨r', e, -⟩ := internalRead_live hr.inv h30 _ hd false 0#32 (by decide)
  refine ⟨((RingBuffer.abs r).length - dist r (BitVec.ofNat 32 p) : Nat), by rw [availableRead, e]; rfl, by omega⟩

/-- Outcome for *every* position, live or not: it depends only on the distance modulo the capacity. -/
theorem position_alias {calloc : BitVec 32 → Option Mem} (hc : RingBuffer.CallocOk calloc) {cap s r}
    (h : Reach calloc cap s r) (p k : Nat) :
    availableRead r (BitVec.ofNat 32 (p + k * cap)) = availableRead r (BitVec.ofNat 32 p) ∧
    ∀ req, read r (BitVec.ofNat 32 (p + k * cap)) req = read r (BitVec.ofNat 32 p) req := by
  have hr := h.rel hc
  have h30 : r.size.toNat ≤ 2 ^ 30 := by rw [hr.cap_eq]; exact hr.cap_le
  have : canRead r (BitVec.ofNat 32 (p + k * cap)) = canRead r (BitVec.ofNat 32 p) := by
    rw [canRead_eq hr.inv h30, canRead_eq hr.inv h30, hr.dist_alias]
  refine ⟨?_, fun req => ?_⟩
  · simp only [availableRead, internalRead, this]
  · simp only [read, internalRead, this]

/-- **C16, proved part.**  A position that left the window recently enough not to alias a live one (fewer than
`capacity - held` bytes behind the oldest held byte) is reported COVERED, by both functions, without changing the
buffer or storing any byte.  Missing for the full property: positions further behind, see `full_never_covered` and
`stale_read_wrong_data`. -/
theorem stale_covered_partial {calloc : BitVec 32 → Option Mem} (hc : RingBuffer.CallocOk calloc) {cap s r}
    (h : Reach calloc cap s r) (p : Nat) (h1 : p < s.lo) (h2 : s.lo - p < cap - (s.all.length - s.lo))
    (req : BitVec 32) (hq : req.toNat < 2 ^ 31) :
    availableRead r (BitVec.ofNat 32 p) = some (r, errCovered) ∧
    read r (BitVec.ofNat 32 p) req = some (r, errCovered, []) := by
  have hr := h.rel hc
  have h30 : r.size.toNat ≤ 2 ^ 30 := by rw [hr.cap_eq]; exact hr.cap_le
  have hheld := hr.held
  have hd : dist r (BitVec.ofNat 32 p) = cap - (s.lo - p) := by
    rw [← hr.dist_alias p 1, hr.dist_ge _ (by omega), Nat.mod_eq_of_lt (by omega)]; omega
  have hcr : canRead r (BitVec.ofNat 32 p) = errCovered := by
    rw [canRead_eq hr.inv h30, hd, if_neg (by omega), if_neg (by omega)]
  have hle := canRead_le hr.inv h30 (BitVec.ofNat 32 p)
  rw [hcr] at hle
  have hqi : req.toInt = (req.toNat : Int) := BitVec.toInt_eq_toNat_of_lt (by omega)
  have hn : ¬ (req.toInt ≤ errCovered) := by rw [hqi, errCovered]; omega
  have hneg : errCovered < 0 := by decide
  refine ⟨?_, ?_⟩
  · simp [availableRead, internalRead, hcr, hle]
  · simp [read, internalRead, hcr, hle, hn, hneg]

/-! ## Concrete instances -/

/-- allocator used by the instances -/
def demoCalloc : BitVec 32 → Option Mem := fun n => some (List.replicate n.toNat 0)

theorem demoCalloc_ok : RingBuffer.CallocOk demoCalloc := by
  intro n m h
  simp only [demoCalloc, Option.some.injEq] at h
  rw [← h]; simp

/-- eight bytes written to a buffer of four, then reads: a valid, wrapping history -/
def demoOps : List Op :=
  [.write [1, 2, 3] 3#32, .write [4, 5, 6] 3#32, .avail 3, .read 3 2#32, .write [7, 8, 9] 3#32, .avail 5, .read 6 9#32]

example : Spec.ValidRun 4 ⟨[], 0⟩ demoOps := by
  simp [demoOps, Spec.ValidRun, Spec.Valid, Spec.step]

example : ∃ r, create demoCalloc 4#32 = some (some r) ∧ r.size.toNat = 4 ∧
    (run r demoOps).map (·.2) = some [⟨3, []⟩, ⟨3, []⟩, ⟨3, []⟩, ⟨2, [4, 5]⟩, ⟨3, []⟩, ⟨4, []⟩, ⟨-4, []⟩] :=
  ⟨_, rfl, by decide, by decide⟩

/-- **C16, counterexample.**  Capacity 4, bytes 1..8 written in two writes: stream position 0 (byte 1) was
overwritten, yet reading it succeeds and delivers 5, the byte now aliasing it. -/
theorem stale_read_wrong_data : ∃ r, create demoCalloc 4#32 = some (some r) ∧
    (run r [.write [1, 2, 3, 4] 4#32, .write [5, 6, 7, 8] 4#32, .read 0 1#32]).map (·.2) =
      some [⟨4, []⟩, ⟨4, []⟩, ⟨1, [5]⟩] :=
  ⟨_, rfl, by decide⟩

/-- instance of `stale_covered_partial`: after consuming 3 of 4 bytes, position 1 is reported covered -/
example : ∃ r, create demoCalloc 4#32 = some (some r) ∧
    (run r [.write [1, 2, 3, 4] 4#32, .read 0 3#32, .read 1 1#32]).map (·.2) =
      some [⟨4, []⟩, ⟨3, [1, 2, 3]⟩, ⟨-3, []⟩] :=
  ⟨_, rfl, by decide⟩

end Verif.AutoCover
