import Verif.MsgQueue.Lemmas
/-!
# Properties of `msg_queue.c` (claims C10, C11, C12)
-/
namespace Verif.MsgQueue
open RingBuffer (Ring)

def MallocOk (malloc : BitVec 32 → Option Mem) : Prop := ∀ n m, malloc n = some m → m.length = n.toNat

theorem create_rep {malloc : BitVec 32 → Option Mem} (hm : MallocOk malloc) {n : BitVec 32}
    (hb : n.toNat ≤ 2 ^ 30 + 24) {r : Ring} (h : create malloc n = some (some r)) :
    Rep r [] ∧ r.size.toNat + 24 ≤ n.toNat ∧ n.toNat - 24 < 2 * r.size.toNat := by
  unfold create at h
  by_cases h8 : n < 8#32
  · rw [if_pos h8] at h; simp at h
  · rw [if_neg h8] at h
    cases hmm : malloc n with
    | none => simp [hmm] at h
    | some m =>
      simp only [hmm] at h
      obtain ⟨ha, hb'⟩ := RingBuffer.createWithMem_spec m n (hm _ _ hmm) hb
      rcases Nat.lt_or_ge n.toNat 28 with h2 | h2
      · rw [ha h2] at h; simp at h
      · obtain ⟨r', e, i, a, h3, h4⟩ := hb' h2
        rw [e] at h; simp at h; subst h
        exact ⟨⟨i, by simpa using a, by simp⟩, h3, h4⟩

/-- **C10, C11.** For every buffer size, allocator and history of calls with readable messages: no call is
undefined behaviour and no `ASSERT_ABORT` fires; every result (codes, message bytes, sizes) is that of a FIFO of
whole messages in which each message costs 4 + its length bytes of the ring's capacity.  In particular the code
`AGAIN` never occurs, failing calls change nothing, and BUF_NOT_ENOUGH reports the pending message's size. -/
theorem refines_fifo {malloc : BitVec 32 → Option Mem} (hm : MallocOk malloc) {n : BitVec 32}
    (hb : n.toNat ≤ 2 ^ 30 + 24) {r : Ring} (h : create malloc n = some (some r))
    (ops : List Op) (hv : ∀ o ∈ ops, Spec.Valid o) :
    ∃ r', run r ops = some (r', (Spec.run r.size.toNat [] ops).2) := by
  obtain ⟨i, _⟩ := create_rep hm hb h
  obtain ⟨r', e, _⟩ := run_refines i ops hv
  exact ⟨r', e⟩

/-- messages accepted by the pushes of a history -/
def accepted : List Op → List Out → List (List Byte)
  | .push (some m) size :: os, .pushed .success :: xs => m.take size.toNat :: accepted os xs
  | _ :: os, _ :: xs => accepted os xs
  | _, _ => []

/-- messages delivered by the pops of a history -/
def delivered : List Op → List Out → List (List Byte)
  | _ :: os, .popped .success d _ :: xs => d :: delivered os xs
  | _ :: os, _ :: xs => delivered os xs
  | _, _ => []

def IsClear : Op → Prop
  | .clear => True
  | _ => False

theorem spec_conservation (cap : Nat) (ops : List Op) (hc : ∀ o ∈ ops, ¬ IsClear o) (q : List (List Byte)) :
    q ++ accepted ops (Spec.run cap q ops).2 = delivered ops (Spec.run cap q ops).2 ++ (Spec.run cap q ops).1 := by
  induction ops generalizing q with
  | nil => simp [Spec.run, accepted, delivered]
  | cons o os ih =>
    have hc' : ∀ o ∈ os, ¬ IsClear o := fun o ho => hc o (by simp [ho])
    have ho := hc o (by simp)
    cases o with
    | push msg size =>
      cases msg with
      | none => simp only [Spec.run, Spec.step, accepted, delivered]; exact ih hc' _
      | some m =>
        simp only [Spec.run, Spec.step]
        split
        · simp only [accepted, delivered]; exact ih hc' _
        · split
          · simp only [accepted, delivered]; exact ih hc' _
          · simp only [accepted, delivered]
            have := ih hc' (q ++ [m.take size.toNat])
            simpa using this
    | pop t s =>
      cases s with
      | none => cases t <;> (simp only [Spec.run, Spec.step, accepted, delivered]; exact ih hc' _)
      | some room =>
        cases t with
        | false => simp only [Spec.run, Spec.step, accepted, delivered]; exact ih hc' _
        | true =>
          simp only [Spec.run, Spec.step]
          cases q with
          | nil => simp only [accepted, delivered]; exact ih hc' _
          | cons m q =>
            simp only []
            split
            · simp only [accepted, delivered]; exact ih hc' _
            · simp only [accepted, delivered, List.cons_append]; rw [ih hc']
    | nextSize => simp only [Spec.run, Spec.step, accepted, delivered]; exact ih hc' _
    | clear => exact absurd trivial ho
    | popBytes => simp only [Spec.run, Spec.step, accepted, delivered]; exact ih hc' _
    | pushBytes => simp only [Spec.run, Spec.step, accepted, delivered]; exact ih hc' _

/-- **C10**, on the code's own results: over any clear-free history the accepted messages are, in order and whole,
the delivered ones followed by those still queued (whose total cost is what `available_pop_bytes` reports). -/
theorem no_loss_no_dup {malloc : BitVec 32 → Option Mem} (hm : MallocOk malloc) {n : BitVec 32}
    (hb : n.toNat ≤ 2 ^ 30 + 24) {r : Ring} (h : create malloc n = some (some r))
    (ops : List Op) (hv : ∀ o ∈ ops, Spec.Valid o) (hc : ∀ o ∈ ops, ¬ IsClear o) :
    ∃ r' outs rest, run r ops = some (r', outs) ∧ accepted ops outs = delivered ops outs ++ rest ∧
      (RingBuffer.availRead r').toNat = Spec.used rest := by
  obtain ⟨i, _⟩ := create_rep hm hb h
  obtain ⟨r', e, _, hrep⟩ := run_refines i ops hv
  refine ⟨r', _, (Spec.run r.size.toNat [] ops).1, e, ?_, hrep.used⟩
  have := spec_conservation r.size.toNat ops hc []
  simpa using this

/-- **C11.** After any history: if the pending message is longer than the caller's buffer, pop returns
BUF_NOT_ENOUGH, stores the needed size, leaves the queue untouched, and a retry with that size delivers the message. -/
theorem retry_succeeds {malloc : BitVec 32 → Option Mem} (hm : MallocOk malloc) {n : BitVec 32}
    (hb : n.toNat ≤ 2 ^ 30 + 24) {r : Ring} (h : create malloc n = some (some r))
    (ops : List Op) (hv : ∀ o ∈ ops, Spec.Valid o) {r1 : Ring} {outs : List Out} (hr : run r ops = some (r1, outs))
    (room : BitVec 32) {r2 : Ring} {d : List Byte} {need : Option (BitVec 32)}
    (hp : pop r1 true (some room) = some (r2, .bufNotEnough, d, need)) :
    r2 = r1 ∧ d = [] ∧ ∃ sz r3 m, need = some sz ∧ room.toNat < sz.toNat ∧ m.length = sz.toNat ∧
      pop r1 true (some sz) = some (r3, .success, m, some sz) := by
  obtain ⟨i, _⟩ := create_rep hm hb h
  obtain ⟨r', e, _, hrep⟩ := run_refines i ops hv
  rw [hr] at e
  simp at e
  obtain ⟨e1, _⟩ := e
  subst e1
  cases hq : (Spec.run r.size.toNat [] ops).1 with
  | nil =>
    rw [hq] at hrep
    have hu := hrep.used
    have : (RingBuffer.availRead r1).toNat < 4 + 1 := by rw [hu]; simp [Spec.used]
    simp [pop, this] at hp
  | cons m ms =>
    rw [hq] at hrep
    have hmm := hrep.each m (by simp)
    have hmn : (BitVec.ofNat 32 m.length).toNat = m.length := by
      rw [BitVec.toNat_ofNat, Nat.mod_eq_of_lt hmm.2]
    obtain ⟨p1, p2⟩ := pop_spec hrep room
    rcases Nat.lt_or_ge room.toNat m.length with hlt | hge
    · rw [p1 hlt] at hp
      simp at hp
      obtain ⟨a, b, c⟩ := hp
      obtain ⟨r3, e3, _⟩ := (pop_spec hrep (BitVec.ofNat 32 m.length)).2 (by omega)
      exact ⟨a.symm, b, _, r3, m, c.symm, by omega, by omega, e3⟩
    · obtain ⟨r3, e3, _⟩ := p2 hge
      rw [e3] at hp
      simp at hp

/-- **C12, negation (general)**: on success `*msg_size_p` keeps the caller's value, whatever the size of the popped
message — so whenever the buffer is strictly larger than the message the documented "real size" is wrong. -/
theorem pop_size_not_reported {malloc : BitVec 32 → Option Mem} (hm : MallocOk malloc) {n : BitVec 32}
    (hb : n.toNat ≤ 2 ^ 30 + 24) {r : Ring} (h : create malloc n = some (some r))
    (ops : List Op) (hv : ∀ o ∈ ops, Spec.Valid o) {r1 : Ring} {outs : List Out} (hr : run r ops = some (r1, outs))
    (room : BitVec 32) {r2 : Ring} {d : List Byte} {after : Option (BitVec 32)}
    (hp : pop r1 true (some room) = some (r2, .success, d, after)) :
    after = some room ∧ d.length ≤ room.toNat := by
  obtain ⟨i, _⟩ := create_rep hm hb h
  obtain ⟨r', e, _, hrep⟩ := run_refines i ops hv
  rw [hr] at e
  simp at e
  obtain ⟨e1, _⟩ := e
  subst e1
  cases hq : (Spec.run r.size.toNat [] ops).1 with
  | nil =>
    rw [hq] at hrep
    have hu := hrep.used
    have : (RingBuffer.availRead r1).toNat < 4 + 1 := by rw [hu]; simp [Spec.used]
    simp [pop, this] at hp
  | cons m ms =>
    rw [hq] at hrep
    obtain ⟨p1, p2⟩ := pop_spec hrep room
    rcases Nat.lt_or_ge room.toNat m.length with hlt | hge
    · rw [p1 hlt] at hp
      simp at hp
    · obtain ⟨r3, e3, _⟩ := p2 hge
      rw [e3] at hp
      simp at hp
      obtain ⟨_, hd, ha⟩ := hp
      subst hd
      exact ⟨ha.symm, hge⟩

/-- a fresh 32-byte ring used by the witnesses below -/
def exRing : Ring := { inp := 0#32, out := 0#32, size := 32#32, buf := List.replicate 32 0 }

/-- **C12, negation (witness)**: a 2-byte message popped into a 100-byte buffer leaves `*msg_size_p = 100`. -/
theorem pop_size_witness :
    (run exRing [.push (some [7, 8]) 2#32, .pop true (some 100#32)]).map (·.2) =
      some [.pushed .success, .popped .success [7, 8] (some 100)] := by decide

/-- **C12, partial**: the size is right when the caller passes exactly the size announced by
`msg_queue_next_msg_size` (or by a previous BUF_NOT_ENOUGH).  Missing: every larger buffer. -/
theorem pop_size_exact_partial {r : Ring} {m : List Byte} {ms : List (List Byte)} (h : Rep r (m :: ms)) :
    ∃ sz r', nextSize r = some sz ∧ pop r true (some sz) = some (r', .success, m, some sz) ∧ sz.toNat = m.length := by
  have hm := h.each m (by simp)
  have hmn : (BitVec.ofNat 32 m.length).toNat = m.length := by
    rw [BitVec.toNat_ofNat, Nat.mod_eq_of_lt hm.2]
  obtain ⟨r3, e3, _⟩ := (pop_spec h (BitVec.ofNat 32 m.length)).2 (by omega)
  refine ⟨_, r3, ?_, e3, hmn⟩
  have hU := h.used
  rw [used_cons] at hU
  have : ¬ (RingBuffer.availRead r).toNat < 4 + 1 := by omega
  simp [nextSize, if_neg this, peek_hdr h, dec_enc]

/-! Non-vacuity: fill, refuse, size query, short buffer, retry, drain (with ring wrap-around). -/
example : (run exRing [.push (some [1,2,3,4,5,6,7,8,9,10,11,12]) 12#32, .push (some [9,9,9]) 3#32,
      .push (some [1,2,3,4,5,6]) 6#32, .nextSize, .pop true (some 5#32), .pop true (some 12#32),
      .push (some [1,2,3,4,5,6,7,8,9,10]) 10#32, .pop true (some 3#32), .pop true (some 10#32), .pop true (some 9#32)]).map (·.2) =
    some [.pushed .success, .pushed .success, .pushed .full, .num 12, .popped .bufNotEnough [] (some 12),
      .popped .success [1,2,3,4,5,6,7,8,9,10,11,12] (some 12), .pushed .success,
      .popped .success [9,9,9] (some 3), .popped .success [1,2,3,4,5,6,7,8,9,10] (some 10), .popped .empty [] (some 9)] := by
  decide

example : Rep exRing [] := by
  refine ⟨⟨⟨5, by decide, by decide, by decide⟩, by decide, by decide⟩, by decide, by simp⟩

end Verif.MsgQueue
