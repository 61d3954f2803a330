import Verif.ObjLife.Props
/-!
# C89: what the constructors hand out is an empty object whose storage lies inside its own blocks

The offsets are those of the C structures (see `Model.lean`).
-/
namespace Verif.ObjLife

/-- An empty `RingBuffer` at offset `o` of block `b`: nothing written (4), nothing read (8), `sz` bytes of storage (12), the
storage right behind the 24 bytes of the structure (16) and, like it, inside the block. -/
def EmptyRing (h : Heap) (b o sz : Nat) : Prop :=
  h.nv b (o + 4) = 0 ∧ h.nv b (o + 8) = 0 ∧ h.nv b (o + 12) = sz ∧ h.pv b (o + 16) = .at b (o + 24) ∧
    ∃ all, h.live b = some all ∧ o + 24 + sz ≤ all

/-- An empty `ring_buf` at block `b`: both offsets 0, `sz` bytes, the storage behind the structure and inside the block. -/
def EmptyRbuf (h : Heap) (b sz : Nat) : Prop :=
  h.nv b 24 = 0 ∧ h.nv b 32 = 0 ∧ h.nv b 16 = sz ∧ h.pv b 8 = .at b 40 ∧ h.live b = some (40 + sz)

theorem ringSize_pow (n : Nat) (h1 : 4 ≤ n) (h2 : n ≤ 2 ^ 30) :
    ∃ sz k, ringSize n = some sz ∧ sz = 2 ^ k ∧ sz ≤ n ∧ n < 2 * sz := by
  have hn : (BitVec.ofNat 32 n).toNat = n := by rw [BitVec.toNat_ofNat]; omega
  cases hp : RingBuffer.isPow2 (BitVec.ofNat 32 n)
  · obtain ⟨up, k, e, hk, hu, hl, hr⟩ := RingBuffer.roundup_spec (BitVec.ofNat 32 n) (by omega) hp (by omega)
    rw [hn] at hl hr
    refine ⟨(up >>> 1).toNat, k, by simp [ringSize, hp, e], ?_, ?_, ?_⟩ <;>
      rw [BitVec.toNat_ushiftRight, Nat.shiftRight_eq_div_pow, hu] <;> rw [Nat.pow_succ] at * <;> omega
  · rw [RingBuffer.isPow2_eq] at hp
    obtain ⟨k, _, e⟩ := (Integer.isPowerOfTwo_iff _).1 hp
    exact ⟨n, k, by simp [ringSize, RingBuffer.isPow2_eq, hp], by rw [← e, hn], by omega, by omega⟩

/-- **RingBuffer_create_with_mem**: the largest power of two that fits behind the structure -/
theorem ring_with_mem_starts (h : Heap) (b o n all : Nat) (hb : h.live b = some all) (hs : o + n ≤ all) (hn : 28 ≤ n)
    (hn2 : n ≤ 2 ^ 30 + 24) :
    ∃ h' k, ringWithMem (.at b o) n h = some (.at b o, h') ∧ EmptyRing h' b o (2 ^ k) ∧ 24 + 2 ^ k ≤ n ∧ n < 24 + 2 * 2 ^ k ∧
      h'.live = h.live ∧ h'.pv b o = h.pv b o ∧ (∀ i, i < o → h'.nv b i = h.nv b i) := by
  obtain ⟨s, k, hs1, hk, hs2, hs3⟩ := ringSize_pow (n - 24) (by omega) (by omega)
  have a1 : o + 1 ≤ all := by omega
  have a2 : o + 16 + 8 ≤ all := by omega
  have a3 : o + 12 + 4 ≤ all := by omega
  have a4 : o + 4 + 4 ≤ all := by omega
  have a5 : o + 8 + 4 ≤ all := by omega
  have a0 : ¬ n < 28 := by omega
  refine ⟨{ h with
      bv := upd h.bv b (upd (h.bv b) o false), pv := upd h.pv b (upd (h.pv b) (o + 16) (.at b (o + 24))),
      nv := upd (upd (upd h.nv b (upd (h.nv b) (o + 12) s)) b (upd (upd (h.nv b) (o + 12) s) (o + 4) 0)) b
        (upd (upd (upd (h.nv b) (o + 12) s) (o + 4) 0) (o + 8) 0) }, k, ?_, ⟨?_, ?_, ?_, ?_, all, hb, ?_⟩, ?_, ?_, rfl, ?_, ?_⟩
  · simp [ringWithMem, hs1, a0, bind, andThen, pure, pure', setB, setP, setN, access, hb, a1, a2, a3, a4, a5, Ptr.add, upd_same]
  · simp [upd]
  · simp [upd]
  · simp [upd, hk]
  · simp [upd]
  · omega
  · omega
  · omega
  · simp [upd]
  · intro i hi
    have e1 : i ≠ o + 8 := by omega
    have e2 : i ≠ o + 4 := by omega
    have e3 : i ≠ o + 12 := by omega
    simp [upd, e1, e2, e3]

/-- **RingBuffer_create**: the smallest power of two that is at least `n` -/
theorem ring_starts (h : Heap) (n : Nat) (h3 : 3 ≤ n) (hn : n ≤ 2 ^ 30) (hg : h.grant h.calls = true) :
    ∃ b h' k, ringCreate n h = some (.at b 0, h') ∧ EmptyRing h' b 0 (2 ^ k) ∧ n ≤ 2 ^ k ∧ 2 ^ k < 2 * n ∧
      h'.bv b 0 = true := by
  have hn32 : (BitVec.ofNat 32 n).toNat = n := by rw [BitVec.toNat_ofNat]; omega
  obtain ⟨up, k, hu, hk, h4, h5, h6⟩ : ∃ up k, ringUp n = some up ∧ up = 2 ^ k ∧ n ≤ up ∧ up < 2 * n ∧ 4 ≤ up ∧ up ≤ 2 ^ 30 := by
    cases hp : RingBuffer.isPow2 (BitVec.ofNat 32 n)
    · obtain ⟨up, k, e, hk, hu, hl, hr⟩ := RingBuffer.roundup_spec (BitVec.ofNat 32 n) (by omega) hp (by omega)
      rw [hn32] at hl hr
      have hup : up.toNat ≤ 2 ^ 30 := by rw [hu]; exact Nat.pow_le_pow_right (by omega) (by omega)
      have hne : 2 ^ k ≠ n := by
        intro e2
        rw [RingBuffer.isPow2_eq] at hp
        have : 1 ≤ k := by
          cases k with
          | zero => simp at e2; omega
          | succ k => omega
        have := (Integer.isPowerOfTwo_iff (BitVec.ofNat 32 n)).2 ⟨k, this, by rw [hn32, e2]⟩
        rw [this] at hp; simp at hp
      have h1 : 1 ≤ k := by
        cases k with
        | zero => simp at hr; omega
        | succ k => omega
      have h2 : 2 ^ 1 ≤ 2 ^ k := Nat.pow_le_pow_right (by omega) h1
      refine ⟨up.toNat, k + 1, by simp [ringUp, hp, e], hu, by omega, ?_, ?_, hup⟩ <;> rw [hu, Nat.pow_succ] <;> omega
    · have hp' := hp
      rw [RingBuffer.isPow2_eq] at hp'
      obtain ⟨k, _, e⟩ := (Integer.isPowerOfTwo_iff _).1 hp'
      have h1 : 2 ≤ k := by
        rcases Nat.lt_or_ge k 2 with h | h
        · have : k = 0 ∨ k = 1 := by omega
          rcases this with rfl | rfl <;> rw [hn32] at e <;> simp at e <;> omega
        · exact h
      have h2 : 2 ^ 2 ≤ 2 ^ k := Nat.pow_le_pow_right (by omega) h1
      exact ⟨n, k, by simp [ringUp, hp], by rw [← e, hn32], by omega, by omega, by rw [hn32] at e; omega, hn⟩
  have e1 : calloc (24 + up) h = some (.at h.next 0, { h with
      live := upd h.live h.next (some (24 + up)), pv := upd h.pv h.next (fun _ => .null), bv := upd h.bv h.next (fun _ => false),
      nv := upd h.nv h.next (fun _ => 0), next := h.next + 1, calls := h.calls + 1 }) := by simp [calloc, hg]
  generalize hh1 : ({ h with
      live := upd h.live h.next (some (24 + up)), pv := upd h.pv h.next (fun _ => .null), bv := upd h.bv h.next (fun _ => false),
      nv := upd h.nv h.next (fun _ => 0), next := h.next + 1, calls := h.calls + 1 } : Heap) = h1 at e1
  have l1 : h1.live h.next = some (24 + up) := by subst hh1; exact upd_same _ _ _
  obtain ⟨h2, j, e2, q1, q2, q3, q4, _⟩ :=
    ring_with_mem_starts h1 h.next 0 (24 + up) (24 + up) l1 (by omega) (by omega) (by omega)
  have hj : j = k := by
    rw [hk] at q2 q3
    have a : 2 ^ j ≤ 2 ^ k := by omega
    have b : 2 ^ k < 2 ^ (j + 1) := by rw [Nat.pow_succ]; omega
    have := (Nat.pow_le_pow_iff_right (by omega : 1 < 2)).1 a
    have := (Nat.pow_lt_pow_iff_right (by omega : 1 < 2)).1 b
    omega
  subst hj
  have n2 : ¬ n < 2 := by omega
  have l2 : h2.live h.next = some (24 + up) := by rw [q4]; exact l1
  have a1 : 1 ≤ 24 + up := by omega
  refine ⟨h.next, { h2 with bv := upd h2.bv h.next (upd (h2.bv h.next) 0 true) }, j, ?_, q1, by omega, by omega, ?_⟩
  · simp [ringCreate, n2, hu, bind, andThen, pure, pure', e1, e2, setB, access, l2, a1]
  · simp [upd]

/-- **ring_buf_create** -/
theorem rbuf_starts (h : Heap) (n : Nat) (h3 : 3 ≤ n) (ho : n + 40 < 2 ^ 64) (hg : h.grant h.calls = true) :
    ∃ b h', rbufCreate n h = some (.at b 0, h') ∧ EmptyRbuf h' b n ∧ h'.bv b 0 = true := by
  have hm : (n + 40) % 2 ^ 64 = n + 40 := Nat.mod_eq_of_lt ho
  have n3 : ¬ n < 3 := by omega
  have a0 : ¬ n + 40 < 43 := by omega
  have a1 : 1 ≤ n + 40 := by omega
  have a2 : 16 + 8 ≤ n + 40 := by omega
  have a3 : 8 + 8 ≤ n + 40 := by omega
  have a4 : 32 + 8 ≤ n + 40 := by omega
  have a5 : 24 + 8 ≤ n + 40 := by omega
  refine ⟨h.next, { h with
            live := upd h.live h.next (some (n + 40)), next := h.next + 1, calls := h.calls + 1,
            pv := upd h.pv h.next (upd (h.pv h.next) 8 (.at h.next 40)),
            bv := upd (upd h.bv h.next (upd (h.bv h.next) 0 false)) h.next (upd (upd (h.bv h.next) 0 false) 0 true),
            nv := upd (upd (upd h.nv h.next (upd (h.nv h.next) 16 n)) h.next (upd (upd (h.nv h.next) 16 n) 32 0)) h.next
              (upd (upd (upd (h.nv h.next) 16 n) 32 0) 24 0) }, ?_, ⟨?_, ?_, ?_, ?_, ?_⟩, ?_⟩
  · simp [rbufCreate, n3, hm, bind, andThen, pure, pure', malloc, hg, rbufWithMem, a0, setB, setN, setP, access, upd_same, a1, a2, a3, a4, a5, Ptr.add]
  all_goals simp [upd, Nat.add_comm]

/-- **msg_queue_create**: an empty ring behind the structure -/
theorem mq_starts (h : Heap) (n : Nat) (hn : 28 ≤ n) (hn2 : n ≤ 2 ^ 30 + 24) (hg : h.grant h.calls = true) :
    ∃ b h' k, mqCreate n h = some (.at b 0, h') ∧ h'.pv b 0 = .at b 8 ∧ EmptyRing h' b 8 (2 ^ k) ∧ 24 + 2 ^ k ≤ n ∧
      n < 24 + 2 * 2 ^ k := by
  have e1 : malloc (8 + n) h = some (.at h.next 0, { h with
      live := upd h.live h.next (some (8 + n)), next := h.next + 1, calls := h.calls + 1 }) := by simp [malloc, hg]
  generalize hh1 : ({ h with
      live := upd h.live h.next (some (8 + n)), next := h.next + 1, calls := h.calls + 1 } : Heap) = h1 at e1
  have l1 : h1.live h.next = some (8 + n) := by subst hh1; exact upd_same _ _ _
  obtain ⟨h2, k, e2, q1, q2, q3, q4, q5, q6⟩ := ring_with_mem_starts h1 h.next 8 n (8 + n) l1 (by omega) hn hn2
  have l2 : h2.live h.next = some (8 + n) := by rw [q4]; exact l1
  have n8 : ¬ n < 8 := by omega
  have a1 : 8 ≤ 8 + n := by omega
  refine ⟨h.next, { h2 with pv := upd h2.pv h.next (upd (h2.pv h.next) 0 (.at h.next 8)) }, k, ?_, ?_, ?_, q2, q3⟩
  · simp [mqCreate, n8, bind, andThen, pure, pure', e1, e2, setP, getP, access, l2, Ptr.add, upd_same]
  · simp [upd]
  · obtain ⟨r1, r2, r3, r4, r5⟩ := q1
    exact ⟨r1, r2, r3, by simp [upd]; exact r4, r5⟩

/-- **fixed_msg_queue_create**: the size of a message, and an empty ring behind the structure -/
theorem fq_starts (h : Heap) (one cap : Nat) (hn : 28 ≤ one * cap) (hn2 : one * cap ≤ 2 ^ 30 + 24)
    (hg : h.grant h.calls = true) :
    ∃ b h' k, fqCreate one cap h = some (.at b 0, h') ∧ h'.pv b 0 = .at b 16 ∧ h'.nv b 8 = one ∧ EmptyRing h' b 16 (2 ^ k) ∧
      24 + 2 ^ k ≤ one * cap ∧ one * cap < 24 + 2 * 2 ^ k := by
  have hm : one * cap % 2 ^ 32 = one * cap := Nat.mod_eq_of_lt (by omega)
  have h01 : ¬ (one = 0 ∨ cap = 0) := by
    intro h
    rcases h with h | h
    · subst h; simp at hn
    · subst h; simp at hn
  have e1 : malloc (16 + one * cap) h = some (.at h.next 0, { h with
      live := upd h.live h.next (some (16 + one * cap)), next := h.next + 1, calls := h.calls + 1 }) := by simp [malloc, hg]
  generalize hh1 : ({ h with
      live := upd h.live h.next (some (16 + one * cap)), next := h.next + 1, calls := h.calls + 1 } : Heap) = h1 at e1
  have l1 : h1.live h.next = some (16 + one * cap) := by subst hh1; exact upd_same _ _ _
  have a1 : 8 + 4 ≤ 16 + one * cap := by omega
  have s1 : setN (.at h.next 0) 8 4 one h1 = some ((), { h1 with nv := upd h1.nv h.next (upd (h1.nv h.next) 8 one) }) := by
    simp [setN, access, l1, a1]
  obtain ⟨h2, k, e2, q1, q2, q3, q4, q5, q6⟩ := ring_with_mem_starts
    { h1 with nv := upd h1.nv h.next (upd (h1.nv h.next) 8 one) } h.next 16 (one * cap) (16 + one * cap) l1 (by omega) hn hn2
  have l2 : h2.live h.next = some (16 + one * cap) := by rw [q4]; exact l1
  have a2 : 8 ≤ 16 + one * cap := by omega
  refine ⟨h.next, { h2 with pv := upd h2.pv h.next (upd (h2.pv h.next) 0 (.at h.next 16)) }, k, ?_, ?_, ?_, ?_, q2, q3⟩
  · simp [fqCreate, h01, show one * cap % 4294967296 = one * cap from hm, bind, andThen, pure, pure', e1, s1, e2, setP, getP, access, l2, a2, Ptr.add, upd_same]
  · simp [upd]
  · show h2.nv h.next 8 = one
    rw [q6 8 (by omega)]; simp [upd]
  · obtain ⟨r1, r2, r3, r4, r5⟩ := q1
    exact ⟨r1, r2, r3, by simp [upd]; exact r4, r5⟩

/-- **stringbuilder_create**: length 0, a terminator at the start, as much storage as asked for (128 if less than 2) -/
theorem sb_starts (h : Heap) (n : Nat) (hg : h.grant h.calls = true) (hg2 : h.grant (h.calls + 1) = true) :
    ∃ b c h', sbCreate n h = some (.at b 0, h') ∧ h'.pv b 0 = .at c 0 ∧ h'.nv b 16 = 0 ∧ h'.nv c 0 = 0 ∧ c ≠ b ∧
      h'.live c = some (h'.nv b 8) ∧ h'.nv b 8 = (if 2 ≤ n then n else 128) := by
  by_cases n2 : n < 2
  · have n2' : ¬ 2 ≤ n := by omega
    simp [sbCreate, bind, andThen, pure, pure', malloc, hg, hg2, n2, n2', setN, setP, access, upd]
    exact ⟨_, h.next + 1, _, ⟨rfl, rfl⟩, by simp [upd], by simp [upd], by simp [upd], by omega, by simp [upd], by simp [upd]⟩
  · have n2' : 2 ≤ n := by omega
    have a1 : 1 ≤ n := by omega
    simp [sbCreate, bind, andThen, pure, pure', malloc, hg, hg2, n2, n2', setN, setP, access, upd, a1]
    exact ⟨_, h.next + 1, _, ⟨rfl, rfl⟩, by simp [upd], by simp [upd], by simp [upd], by omega, by simp [upd], by simp [upd]⟩

/-- the hypotheses are met -/
example : ∃ b h' k, ringCreate 4000 (empty fun _ => true) = some (.at b 0, h') ∧ EmptyRing h' b 0 (2 ^ k) ∧ 4000 ≤ 2 ^ k ∧
    2 ^ k < 2 * 4000 ∧ h'.bv b 0 = true := ring_starts _ 4000 (by omega) (by omega) rfl

end Verif.ObjLife
