import Verif.FixedMsgQueue.Lemmas
/-!
# Properties of `fixed_msg_queue.c` (claims C08, C09)
-/
namespace Verif.FixedMsgQueue

/-- Contract of the allocator: objects have the requested size. -/
def MallocOk (malloc : BitVec 32 → Option Mem) : Prop := ∀ n m, malloc n = some m → m.length = n.toNat

theorem create_rep {malloc : BitVec 32 → Option Mem} (hm : MallocOk malloc) {one max : BitVec 32}
    (hb : (one * max).toNat ≤ 2 ^ 30 + 24) {q : Queue} (h : create malloc one max = some (some q)) :
    Rep q [] ∧ q.one = one ∧ q.ring.size.toNat + 24 ≤ (one * max).toNat ∧
      (one * max).toNat - 24 < 2 * q.ring.size.toNat := by
  unfold create at h
  by_cases h1 : one < 1#32 ∨ max < 1#32
  · rw [if_pos h1] at h; simp at h
  · rw [if_neg h1] at h
    cases hmm : malloc (one * max) with
    | none => simp [hmm] at h
    | some m =>
      simp only [hmm] at h
      obtain ⟨ha, hb'⟩ := RingBuffer.createWithMem_spec m (one * max) (hm _ _ hmm) hb
      rcases Nat.lt_or_ge (one * max).toNat 28 with h2 | h2
      · rw [ha h2] at h; simp at h
      · obtain ⟨r, e, i, a, hs1, hs2⟩ := hb' h2
        rw [e] at h
        simp at h
        subst h
        refine ⟨⟨i, ?_, by simpa using a, by simp⟩, rfl, hs1, hs2⟩
        have : ¬ one < 1#32 := fun hc => h1 (Or.inl hc)
        rw [BitVec.lt_def] at this
        simp at this ⊢
        omega

/-- **C08.** For every message size, capacity argument and allocator, and every history of calls with readable
messages, no call is undefined behaviour and all results are those of a FIFO of whole messages bounded by the
queue's real capacity. -/
theorem refines_fifo {malloc : BitVec 32 → Option Mem} (hm : MallocOk malloc) {one max : BitVec 32}
    (hb : (one * max).toNat ≤ 2 ^ 30 + 24) {q : Queue} (h : create malloc one max = some (some q))
    (ops : List Op) (hv : ∀ o ∈ ops, Spec.Valid one.toNat o) :
    ∃ q', run q ops = some (q', (Spec.run one.toNat (q.ring.size.toNat / one.toNat) [] ops).2) := by
  obtain ⟨i, e, _⟩ := create_rep hm hb h
  obtain ⟨q', hr, _⟩ := run_refines i ops (by rw [e]; exact hv)
  rw [capacity, e] at hr
  exact ⟨q', hr⟩

/-- **C09, what really holds**: the real capacity, in messages, uses more than half of the requested bytes minus
the 24-byte ring header — and is always *strictly smaller* than the documented `max_msg_capacity`. -/
theorem capacity_bounds_partial {malloc : BitVec 32 → Option Mem} (hm : MallocOk malloc) {one max : BitVec 32}
    (hb : (one * max).toNat ≤ 2 ^ 30 + 24) {q : Queue} (h : create malloc one max = some (some q)) :
    q.ring.size.toNat / one.toNat < max.toNat ∧ (one * max).toNat - 24 < 2 * q.ring.size.toNat := by
  obtain ⟨i, e, h1, h2⟩ := create_rep hm hb h
  refine ⟨?_, h2⟩
  have hone : 0 < one.toNat := by rw [← e]; exact i.one
  rw [Nat.div_lt_iff_lt_mul hone]
  have : (one * max).toNat ≤ one.toNat * max.toNat := by
    rw [BitVec.toNat_mul]; exact Nat.mod_le _ _
  rw [Nat.mul_comm max.toNat]
  omega

/-- pushes on a FIFO bounded by `cap`: the first `cap - used` succeed, the rest fail -/
theorem spec_pushes (one cap : Nat) (ms : List (List Byte)) (q : List (List Byte)) (hq : q.length ≤ cap) :
    (Spec.run one cap q (ms.map fun m => Op.push (some m))).2 =
      List.replicate (min ms.length (cap - q.length)) (.pushed true) ++
      List.replicate (ms.length - (cap - q.length)) (.pushed false) := by
  induction ms generalizing q with
  | nil => simp [Spec.run]
  | cons m ms ih =>
    simp only [List.map_cons, Spec.run, Spec.step]
    by_cases h : q.length < cap
    · simp only [if_pos h]
      rw [ih _ (by simp; omega)]
      have e1 : min (m :: ms).length (cap - q.length) = min ms.length (cap - (q ++ [m.take one]).length) + 1 := by
        simp; omega
      have e2 : (m :: ms).length - (cap - q.length) = ms.length - (cap - (q ++ [m.take one]).length) := by
        simp; omega
      rw [e1, e2, List.replicate_succ]
      rfl
    · simp only [if_neg h]
      rw [ih _ hq]
      have e0 : cap - q.length = 0 := by omega
      simp [e0, List.replicate_succ]

/-- **C09, negation**: for *every* message size and capacity for which creation succeeds, pushing
`max_msg_capacity` messages on the fresh queue does not succeed for all of them: the last push is refused. -/
theorem documented_capacity_refused {malloc : BitVec 32 → Option Mem} (hm : MallocOk malloc) {one max : BitVec 32}
    (hb : (one * max).toNat ≤ 2 ^ 30 + 24) {q : Queue} (h : create malloc one max = some (some q))
    (ms : List (List Byte)) (hl : ms.length = max.toNat) (hv : ∀ m ∈ ms, one.toNat ≤ m.length) :
    ∃ q' outs, run q (ms.map fun m => Op.push (some m)) = some (q', outs) ∧ Out.pushed false ∈ outs := by
  obtain ⟨q', e⟩ := refines_fifo hm hb h (ms.map fun m => Op.push (some m)) (by
    intro o ho
    simp at ho
    obtain ⟨m, hm2, rfl⟩ := ho
    exact hv m hm2)
  refine ⟨q', _, e, ?_⟩
  have hc := (capacity_bounds_partial hm hb h).1
  rw [spec_pushes _ _ _ _ (by simp)]
  apply List.mem_append_right
  rw [List.mem_replicate]
  exact ⟨by simp; omega, rfl⟩

/-! Non-vacuity: message size 10, documented capacity 12 (120 bytes): the ring gets 64 bytes, i.e. 6 messages. -/
def exMalloc (n : BitVec 32) : Option Mem := some (List.replicate n.toNat 0)

example : MallocOk exMalloc := by intro n m h; simp [exMalloc] at h; subst h; simp

example : ∃ q, create exMalloc 10#32 12#32 = some (some q) := by
  obtain ⟨r, e, _⟩ := (RingBuffer.createWithMem_spec (List.replicate 120 0) 120#32 (by simp) (by simp)).2 (by simp)
  refine ⟨{ ring := r, one := 10#32 }, ?_⟩
  unfold create
  rw [if_neg (by decide)]
  simp only [exMalloc]
  rw [show (10#32 * 12#32) = 120#32 by decide]
  rw [show (120#32).toNat = 120 by decide, e]

example : (run { ring := { inp := 0#32, out := 0#32, size := 8#32, buf := List.replicate 8 0 }, one := 3#32 }
    [.push (some [1,2,3]), .push (some [4,5,6]), .push (some [7,8,9]), .popAmount, .pop true,
     .push (some [7,8,9]), .pop true, .pop true, .pop true]).map (·.2) =
    some [.pushed true, .pushed true, .pushed false, .amount 2, .popped true [1,2,3],
     .pushed true, .popped true [4,5,6], .popped true [7,8,9], .popped false []] := by decide

end Verif.FixedMsgQueue
