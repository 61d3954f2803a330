import Verif.ObjLife.Spec
import Verif.RingBuffer.Props
/-!
# Objects on the heap: theorems (C89)
-/
namespace Verif.ObjLife

theorem upd_same {α : Type} (f : Nat → α) (i : Nat) (x : α) : upd f i x i = x := by simp [upd]
theorem upd_ne {α : Type} (f : Nat → α) {i j : Nat} (x : α) (h : j ≠ i) : upd f i x j = f j := by simp [upd, h]

theorem ringUp_spec (n : Nat) (h1 : 2 ≤ n) (h2 : n ≤ 2 ^ 30) :
    ∃ up, ringUp n = some up ∧ n ≤ up ∧ up ≤ 2 ^ 30 ∧ (3 ≤ n → 4 ≤ up) ∧ (n = 2 → up = 2) := by
  have hn : (BitVec.ofNat 32 n).toNat = n := by rw [BitVec.toNat_ofNat]; omega
  cases hp : RingBuffer.isPow2 (BitVec.ofNat 32 n)
  · obtain ⟨up, k, e, hk, hu, hl, hr⟩ := RingBuffer.roundup_spec (BitVec.ofNat 32 n) (by omega) hp (by omega)
    rw [hn] at hl hr
    have hup : up.toNat ≤ 2 ^ 30 := by rw [hu]; exact Nat.pow_le_pow_right (by omega) (by omega)
    refine ⟨up.toNat, by simp [ringUp, hp, e], by omega, hup, by omega, ?_⟩
    intro h; subst h
    exact absurd hp (by decide)
  · refine ⟨n, by simp [ringUp, hp], by omega, by omega, ?_, fun h => h⟩
    intro h
    by_cases h3 : n = 3
    · subst h3; exact absurd hp (by decide)
    · omega

theorem ringSize_spec (n : Nat) (h1 : 4 ≤ n) (h2 : n ≤ 2 ^ 30) : ∃ sz, ringSize n = some sz ∧ sz ≤ n := by
  have hn : (BitVec.ofNat 32 n).toNat = n := by rw [BitVec.toNat_ofNat]; omega
  cases hp : RingBuffer.isPow2 (BitVec.ofNat 32 n)
  · obtain ⟨up, k, e, hk, hu, hl, hr⟩ := RingBuffer.roundup_spec (BitVec.ofNat 32 n) (by omega) hp (by omega)
    rw [hn] at hl hr
    refine ⟨(up >>> 1).toNat, by simp [ringSize, hp, e], ?_⟩
    rw [BitVec.toNat_ushiftRight, Nat.shiftRight_eq_div_pow, hu]
    omega
  · exact ⟨n, by simp [ringSize, hp], by omega⟩

/-- `RingBuffer_create_with_mem` in a block that is large enough -/
theorem ringWithMem_run (h : Heap) (b o n sz : Nat) (hb : h.live b = some sz) (hs : o + n ≤ sz) (hn : 28 ≤ n) (hn2 : n ≤ 2 ^ 30 + 24) :
    ∃ h', ringWithMem (.at b o) n h = some (.at b o, h') ∧ h'.live = h.live ∧ h'.next = h.next ∧ h'.grant = h.grant ∧
      h'.calls = h.calls ∧
      h'.pv = upd h.pv b (upd (h.pv b) (o + 16) (.at b (o + 24))) ∧ h'.bv = upd h.bv b (upd (h.bv b) o false) ∧
      (∀ c, c ≠ b → h'.nv c = h.nv c) := by
  obtain ⟨s, hs1, _⟩ := ringSize_spec (n - 24) (by omega) (by omega)
  have a1 : o + 1 ≤ sz := by omega
  have a2 : o + 16 + 8 ≤ sz := by omega
  have a3 : o + 12 + 4 ≤ sz := by omega
  have a4 : o + 4 + 4 ≤ sz := by omega
  have a5 : o + 8 + 4 ≤ sz := by omega
  have a0 : ¬ n < 28 := by omega
  simp [ringWithMem, hs1, a0, bind, andThen, pure, pure', setB, setP, setN, access, hb, a1, a2, a3, a4, a5, Ptr.add]
  intro c hc
  simp [upd, hc]

theorem ring_idempotent : Idempotent ringDestroy := fun _ => ⟨rfl, rfl⟩

/-- `RingBuffer_destroy` of a ring in someone else's memory frees nothing -/
theorem ringDestroy_foreign (h : Heap) (b o sz : Nat) (hb : h.live b = some sz) (hs : o + 24 ≤ sz) (hf : h.bv b o = false) :
    ∃ h', ringDestroy (some (.at b o)) h = some (some .null, h') ∧ h'.live = h.live ∧ h'.pv = h.pv ∧ h'.bv = h.bv ∧
      (∀ c, c ≠ b → h'.nv c = h.nv c) := by
  have a1 : o + 1 ≤ sz := by omega
  have a3 : o + 12 + 4 ≤ sz := by omega
  have a4 : o + 4 + 4 ≤ sz := by omega
  have a5 : o + 8 + 4 ≤ sz := by omega
  simp [ringDestroy, bind, andThen, pure, pure', setN, getB, access, hb, a1, a3, a4, a5, hf]
  intro c hc
  simp [upd, hc]

/-- `RingBuffer_destroy` of a ring the library allocated -/
theorem ringDestroy_own (h : Heap) (b sz : Nat) (hb : h.live b = some sz) (hs : 24 ≤ sz) (hf : h.bv b 0 = true) :
    ∃ h', ringDestroy (some (.at b 0)) h = some (some .null, h') ∧ h'.live = upd h.live b none ∧
      (∀ c, c ≠ b → h'.pv c = h.pv c ∧ h'.bv c = h.bv c ∧ h'.nv c = h.nv c) := by
  have a1 : 1 ≤ sz := by omega
  have a2 : 16 + 8 ≤ sz := by omega
  have a3 : 12 + 4 ≤ sz := by omega
  have a4 : 4 + 4 ≤ sz := by omega
  have a5 : 8 + 4 ≤ sz := by omega
  simp [ringDestroy, bind, andThen, pure, pure', setN, setP, setB, getB, free, access, hb, a1, a2, a3, a4, a5, hf]
  intro c hc
  simp [upd, hc]

theorem upd_restore {f : Nat → Option Nat} {i : Nat} {x : Option Nat} (h : f i = none) : upd (upd f i x) i none = f := by
  funext j
  by_cases hj : j = i
  · subst hj; simp [upd, h]
  · simp [upd, hj]

theorem ringCreate_made (h : Heap) (n : Nat) (h3 : 3 ≤ n) (hn : n ≤ 2 ^ 30) (hg : h.grant h.calls = true) :
    ∃ up h', ringCreate n h = some (.at h.next 0, h') ∧ 4 ≤ up ∧ h'.live = upd h.live h.next (some (24 + up)) ∧
      h'.next = h.next + 1 ∧ h'.grant = h.grant ∧ h'.calls = h.calls + 1 ∧ h'.bv h.next 0 = true ∧
      (∀ c, c ≠ h.next → h'.pv c = h.pv c ∧ h'.bv c = h.bv c ∧ h'.nv c = h.nv c) := by
  obtain ⟨up, hu, _, hu2, hu3, _⟩ := ringUp_spec n (by omega) hn
  have h4 := hu3 h3
  have e1 : calloc (24 + up) h = some (.at h.next 0, { h with
      live := upd h.live h.next (some (24 + up)), pv := upd h.pv h.next (fun _ => .null), bv := upd h.bv h.next (fun _ => false),
      nv := upd h.nv h.next (fun _ => 0), next := h.next + 1, calls := h.calls + 1 }) := by simp [calloc, hg]
  generalize hh1 : ({ h with
      live := upd h.live h.next (some (24 + up)), pv := upd h.pv h.next (fun _ => .null), bv := upd h.bv h.next (fun _ => false),
      nv := upd h.nv h.next (fun _ => 0), next := h.next + 1, calls := h.calls + 1 } : Heap) = h1 at e1
  have l1 : h1.live h.next = some (24 + up) := by subst hh1; exact upd_same _ _ _
  obtain ⟨h2, e2, q1, q2, q3, q4, q5, q6, q7⟩ := ringWithMem_run h1 h.next 0 (24 + up) (24 + up) l1 (by omega) (by omega) (by omega)
  have n2 : ¬ n < 2 := by omega
  have l2 : h2.live h.next = some (24 + up) := by rw [q1]; exact l1
  have a1 : 1 ≤ 24 + up := by omega
  refine ⟨up, { h2 with bv := upd h2.bv h.next (upd (h2.bv h.next) 0 true) }, ?_, h4, ?_, ?_, ?_, ?_, ?_, ?_⟩
  · simp [ringCreate, n2, hu, bind, andThen, pure, pure', e1, e2, setB, access, l2, a1]
  · show h2.live = _
    rw [q1]; subst hh1; rfl
  · show h2.next = _
    rw [q2]; subst hh1; rfl
  · show h2.grant = _
    rw [q3]; subst hh1; rfl
  · show h2.calls = _
    rw [q4]; subst hh1; rfl
  · simp [upd]
  · intro c hc
    have := q7 c hc
    subst hh1
    simp only [upd_ne _ _ hc] at this
    refine ⟨?_, ?_, this⟩
    · show h2.pv c = _
      rw [q5]; simp [upd, hc]
    · simp [upd, hc, q6]

theorem ringCreate_null (h : Heap) (n : Nat) (hf : Fresh h) (hn : n ≤ 2 ^ 30) (hg : n < 3 ∨ h.grant h.calls = false) :
    ∃ h', ringCreate n h = some (.null, h') ∧ h'.live = h.live ∧ h.next ≤ h'.next ∧
      (∀ c, c < h.next → h'.pv c = h.pv c ∧ h'.bv c = h.bv c ∧ h'.nv c = h.nv c) := by
  by_cases n2 : n < 2
  · refine ⟨h, by simp [ringCreate, n2, pure, pure'], rfl, Nat.le_refl _, fun _ _ => ⟨rfl, rfl, rfl⟩⟩
  · obtain ⟨up, hu, _, hu2, _, hu3⟩ := ringUp_spec n (by omega) hn
    cases hgr : h.grant h.calls
    · refine ⟨{ h with calls := h.calls + 1 }, ?_, rfl, Nat.le_refl _, fun _ _ => ⟨rfl, rfl, rfl⟩⟩
      simp [ringCreate, n2, hu, bind, andThen, pure, pure', calloc, hgr]
    · have hn2 : n = 2 := by
        rcases hg with hg | hg
        · omega
        · rw [hgr] at hg; cases hg
      have hup := hu3 hn2
      subst hup
      refine ⟨{ h with
        live := upd (upd h.live h.next (some 26)) h.next none, pv := upd h.pv h.next (fun _ => .null),
        bv := upd h.bv h.next (fun _ => false), nv := upd h.nv h.next (fun _ => 0), next := h.next + 1, calls := h.calls + 1 },
        ?_, ?_, ?_, ?_⟩
      · simp [ringCreate, n2, hu, bind, andThen, pure, pure', calloc, hgr, ringWithMem, free, upd_same]
      · exact upd_restore (hf _ (Nat.le_refl _))
      · show h.next ≤ h.next + 1
        omega
      · intro c hc
        have : c ≠ h.next := by omega
        simp [upd, this]

theorem live_lt {h : Heap} (hf : Fresh h) {b : Nat} (hb : h.live b ≠ none) : b < h.next := by
  by_cases hlt : b < h.next
  · exact hlt
  · exact absurd (hf b (by omega)) hb

theorem made_nil {h h' : Heap} (hf : Fresh h) (hl : h'.live = h.live)
    (hc : ∀ c, c < h.next → h'.pv c = h.pv c ∧ h'.bv c = h.bv c ∧ h'.nv c = h.nv c) : Made h h' [] :=
  ⟨List.nodup_nil, (by intro b hb; cases hb), (fun b _ => by rw [hl]), fun b hb => hc b (live_lt hf hb)⟩

/-- **RingBuffer_create / RingBuffer_destroy** -/
theorem ring_life (h : Heap) (hf : Fresh h) (n : Nat) (hn : n ≤ 2 ^ 30) :
    AllOrNothing (ringCreate n) ringDestroy h (3 ≤ n ∧ h.grant h.calls = true) := by
  by_cases hok : 3 ≤ n ∧ h.grant h.calls = true
  · obtain ⟨up, h', e, h4, q1, q2, q3, q4, q5, q6⟩ := ringCreate_made h n hok.1 hn hok.2
    refine ⟨_, h', e, by simp [hok], by simp, fun _ => ⟨[h.next], by simp, ⟨by simp, ?_, ?_, ?_⟩, ?_⟩⟩
    · intro b hb
      rw [List.mem_singleton] at hb; subst hb
      exact ⟨hf _ (Nat.le_refl _), by rw [q1, upd_same]; simp⟩
    · intro b hb
      rw [List.mem_singleton] at hb
      rw [q1, upd_ne _ _ hb]
    · intro b hb
      have := live_lt hf hb
      exact q6 b (by omega)
    · intro h2 hk
      obtain ⟨k1, k2, k3⟩ := hk h.next (by simp)
      rw [q1, upd_same] at k1
      obtain ⟨h3, e3, r1, r2⟩ := ringDestroy_own h2 h.next _ k1 (by omega) (by rw [k3]; exact q5)
      refine ⟨h3, e3, ?_, ?_⟩
      · intro b
        rw [r1]
        by_cases hb : b = h.next <;> simp [upd, hb]
      · intro b hb
        rw [List.mem_singleton] at hb
        exact r2 b hb
  · have hg : n < 3 ∨ h.grant h.calls = false := by
      by_cases h3 : 3 ≤ n
      · right; cases hg : h.grant h.calls
        · rfl
        · exact absurd ⟨h3, hg⟩ hok
      · left; omega
    obtain ⟨h', e, q1, q2, q3⟩ := ringCreate_null h n hf hn hg
    refine ⟨.null, h', e, by simp [hok], fun _ => made_nil hf q1 q3, by simp⟩

theorem single_made {create : M Ptr} {destroy : Option Ptr → M (Option Ptr)} {h h' : Heap} {ok : Prop} {sz : Nat}
    (hf : Fresh h) (hok : ok) (e : create h = some (.at h.next 0, h')) (q1 : h'.live = upd h.live h.next (some sz))
    (q2 : ∀ c, c ≠ h.next → h'.pv c = h.pv c ∧ h'.bv c = h.bv c ∧ h'.nv c = h.nv c)
    (d : ∀ h2 : Heap, h2.live h.next = some sz → h2.pv h.next = h'.pv h.next → h2.bv h.next = h'.bv h.next →
      ∃ h3, destroy (some (.at h.next 0)) h2 = some (some .null, h3) ∧ h3.live = upd h2.live h.next none ∧
        (∀ c, c ≠ h.next → h3.pv c = h2.pv c ∧ h3.bv c = h2.bv c ∧ h3.nv c = h2.nv c)) :
    AllOrNothing create destroy h ok := by
  refine ⟨_, h', e, by simp [hok], by simp, fun _ => ⟨[h.next], by simp, ⟨by simp, ?_, ?_, ?_⟩, ?_⟩⟩
  · intro b hb
    rw [List.mem_singleton] at hb; subst hb
    exact ⟨hf _ (Nat.le_refl _), by rw [q1, upd_same]; simp⟩
  · intro b hb
    rw [List.mem_singleton] at hb
    rw [q1, upd_ne _ _ hb]
  · intro b hb
    have := live_lt hf hb
    exact q2 b (by omega)
  · intro h2 hk
    obtain ⟨k1, k2, k3⟩ := hk h.next (by simp)
    rw [q1, upd_same] at k1
    obtain ⟨h3, e3, r1, r2⟩ := d h2 k1 k2 k3
    refine ⟨h3, e3, ?_, ?_⟩
    · intro b
      rw [r1]
      by_cases hb : b = h.next <;> simp [upd, hb]
    · intro b hb
      rw [List.mem_singleton] at hb
      exact r2 b hb

/-- **ring_buf_create / ring_buf_destroy**: also for sizes whose sum with the header overflows -/
theorem rbuf_life (h : Heap) (hf : Fresh h) (n : Nat) (hn : n < 2 ^ 64) :
    AllOrNothing (rbufCreate n) rbufDestroy h (3 ≤ n ∧ n + 40 < 2 ^ 64 ∧ h.grant h.calls = true) := by
  by_cases n3 : n < 3
  · refine ⟨.null, h, by simp [rbufCreate, n3, pure, pure'], by simp; omega,
      fun _ => made_nil hf rfl (fun _ _ => ⟨rfl, rfl, rfl⟩), by simp⟩
  · cases hg : h.grant h.calls
    · refine ⟨.null, { h with calls := h.calls + 1 }, by simp [rbufCreate, n3, bind, andThen, malloc, hg, pure, pure'], by simp,
        fun _ => made_nil hf rfl (fun _ _ => ⟨rfl, rfl, rfl⟩), by simp⟩
    · by_cases ho : n + 40 < 2 ^ 64
      · have hm : (n + 40) % 2 ^ 64 = n + 40 := Nat.mod_eq_of_lt ho
        have a0 : ¬ n + 40 < 43 := by omega
        have a1 : 1 ≤ n + 40 := by omega
        have a2 : 16 + 8 ≤ n + 40 := by omega
        have a3 : 8 + 8 ≤ n + 40 := by omega
        have a4 : 32 + 8 ≤ n + 40 := by omega
        have a5 : 24 + 8 ≤ n + 40 := by omega
        refine single_made (sz := n + 40)
          (h' := { h with
            live := upd h.live h.next (some (n + 40)), next := h.next + 1, calls := h.calls + 1,
            pv := upd h.pv h.next (upd (h.pv h.next) 8 (.at h.next 40)),
            bv := upd (upd h.bv h.next (upd (h.bv h.next) 0 false)) h.next (upd (upd (h.bv h.next) 0 false) 0 true),
            nv := upd (upd (upd h.nv h.next (upd (h.nv h.next) 16 n)) h.next (upd (upd (h.nv h.next) 16 n) 32 0)) h.next
              (upd (upd (upd (h.nv h.next) 16 n) 32 0) 24 0) })
          hf ⟨by omega, ho, rfl⟩ ?_ rfl ?_ ?_
        · simp [rbufCreate, n3, hm, bind, andThen, pure, pure', malloc, hg, rbufWithMem, a0, setB, setN, setP, access, upd_same, a1, a2, a3, a4, a5, Ptr.add]
        · intro c hc
          simp [upd, hc]
        · intro h2 k1 k2 k3
          have b0 : h2.bv h.next 0 = true := by rw [k3]; simp [upd]
          simp [rbufDestroy, bind, andThen, pure, pure', getB, setB, setP, free, access, k1, a1, a3, b0]
          intro c hc
          simp [upd, hc]
      · have hm : (n + 40) % 2 ^ 64 < 43 := by omega
        refine ⟨.null, { h with live := upd (upd h.live h.next (some ((n + 40) % 2 ^ 64))) h.next none, next := h.next + 1, calls := h.calls + 1 },
          ?_, by simp [ho], fun _ => made_nil hf (upd_restore (hf _ (Nat.le_refl _))) (fun _ _ => ⟨rfl, rfl, rfl⟩), by simp⟩
        have hm' := hm
        simp only [Nat.reducePow] at hm'
        simp [rbufCreate, n3, bind, andThen, pure, pure', malloc, hg, rbufWithMem, hm', free, upd_same]

theorem rbuf_idempotent : Idempotent rbufDestroy := fun _ => ⟨rfl, rfl⟩

/-- **msg_queue_create / msg_queue_destroy**: sizes from 8 to 27 pass the function's own check and are still refused -/
theorem mq_life (h : Heap) (hf : Fresh h) (n : Nat) (hn : n ≤ 2 ^ 30 + 24) :
    AllOrNothing (mqCreate n) mqDestroy h (28 ≤ n ∧ h.grant h.calls = true) := by
  by_cases n8 : n < 8
  · refine ⟨.null, h, by simp [mqCreate, n8, pure, pure'], by simp; omega,
      fun _ => made_nil hf rfl (fun _ _ => ⟨rfl, rfl, rfl⟩), by simp⟩
  · cases hg : h.grant h.calls
    · refine ⟨.null, { h with calls := h.calls + 1 }, by simp [mqCreate, n8, bind, andThen, malloc, hg, pure, pure'], by simp,
        fun _ => made_nil hf rfl (fun _ _ => ⟨rfl, rfl, rfl⟩), by simp⟩
    · have a0 : 8 ≤ 8 + n := by omega
      by_cases n28 : n < 28
      · refine ⟨.null, { h with
            live := upd (upd h.live h.next (some (8 + n))) h.next none, next := h.next + 1, calls := h.calls + 1,
            pv := upd h.pv h.next (upd (h.pv h.next) 0 .null) },
          ?_, by simp; omega, fun _ => made_nil hf (upd_restore (hf _ (Nat.le_refl _))) ?_, by simp⟩
        · simp [mqCreate, n8, bind, andThen, pure, pure', malloc, hg, ringWithMem, n28, free, upd_same, Ptr.add, setP, getP, access, a0]
        · intro c hc
          have : c ≠ h.next := by omega
          simp [upd, this]
      · have hh0 : ∃ h0 : Heap, malloc (8 + n) h = some (.at h.next 0, h0) ∧ h0.live h.next = some (8 + n) ∧
            h0.live = upd h.live h.next (some (8 + n)) ∧
            (∀ c, c ≠ h.next → h0.pv c = h.pv c ∧ h0.bv c = h.bv c ∧ h0.nv c = h.nv c) := by
          simp [malloc, hg, upd_same]
        obtain ⟨h0, e0, l0, m0, c0⟩ := hh0
        obtain ⟨h2, e2, q1, q2, q3, q4, q5, q6, q7⟩ := ringWithMem_run h0 h.next 8 n (8 + n) l0 (by omega) (by omega) hn
        have l2 : h2.live h.next = some (8 + n) := by rw [q1]; exact l0
        refine single_made (sz := 8 + n) (h' := { h2 with pv := upd h2.pv h.next (upd (h2.pv h.next) 0 (.at h.next 8)) })
          hf ⟨by omega, rfl⟩ ?_ ?_ ?_ ?_
        · simp [mqCreate, n8, bind, andThen, pure, pure', e0, Ptr.add, e2, setP, getP, access, l2, a0, upd_same]
        · show h2.live = _
          rw [q1]; exact m0
        · intro c hc
          obtain ⟨c1, c2, c3⟩ := c0 c hc
          refine ⟨?_, ?_, ?_⟩
          · simp [upd, hc, q5, c1]
          · show h2.bv c = _
            rw [q6, upd_ne _ _ hc, c2]
          · show h2.nv c = _
            rw [q7 c hc, c3]
        · intro h3 k1 k2 k3
          have p0 : h3.pv h.next 0 = .at h.next 8 := by rw [k2]; simp [upd]
          have b0 : h3.bv h.next 8 = false := by rw [k3]; show h2.bv h.next 8 = false; rw [q6]; simp [upd]
          obtain ⟨h4, e4, r1, r2, r3, r4⟩ := ringDestroy_foreign h3 h.next 8 (8 + n) k1 (by omega) b0
          have l4 : h4.live h.next = some (8 + n) := by rw [r1]; exact k1
          refine ⟨{ h4 with live := upd h4.live h.next none, pv := upd h4.pv h.next (upd (h4.pv h.next) 0 .null) }, ?_, ?_, ?_⟩
          · simp [mqDestroy, bind, andThen, pure, pure', getP, setP, free, access, k1, a0, p0, e4, l4]
          · show upd h4.live h.next none = _
            rw [r1]
          · intro c hc
            simp [upd, hc, r2, r3, r4 c hc]

/-- **fixed_msg_queue_create / fixed_msg_queue_destroy**: what counts is the product in 32 bits -/
theorem fq_life (h : Heap) (hf : Fresh h) (one cap : Nat) (hn : one * cap % 2 ^ 32 ≤ 2 ^ 30 + 24) :
    AllOrNothing (fqCreate one cap) fqDestroy h (28 ≤ one * cap % 2 ^ 32 ∧ h.grant h.calls = true) := by
  by_cases n8 : one < 1 ∨ cap < 1
  · have h0 : one * cap = 0 := by
      rcases n8 with h1 | h1
      · have : one = 0 := by omega
        rw [this, Nat.zero_mul]
      · have : cap = 0 := by omega
        rw [this, Nat.mul_zero]
    refine ⟨.null, h, by simp only [fqCreate, if_pos n8, pure, pure'], by simp [h0],
      fun _ => made_nil hf rfl (fun _ _ => ⟨rfl, rfl, rfl⟩), by simp⟩
  · generalize hP : one * cap % 2 ^ 32 = P at hn ⊢
    have hP' : one * cap % 4294967296 = P := hP
    obtain ⟨n8a, n8b⟩ : ¬ one = 0 ∧ ¬ cap = 0 := by omega
    cases hg : h.grant h.calls
    · refine ⟨.null, { h with calls := h.calls + 1 }, by simp [fqCreate, hP', n8a, n8b, bind, andThen, malloc, hg, pure, pure'], by simp,
        fun _ => made_nil hf rfl (fun _ _ => ⟨rfl, rfl, rfl⟩), by simp⟩
    · have a0 : 8 ≤ 16 + P := by omega
      have a1 : 8 + 4 ≤ 16 + P := by omega
      by_cases n28 : P < 28
      · refine ⟨.null, { h with
            live := upd (upd h.live h.next (some (16 + P))) h.next none, next := h.next + 1, calls := h.calls + 1,
            pv := upd h.pv h.next (upd (h.pv h.next) 0 .null),
            nv := upd h.nv h.next (upd (h.nv h.next) 8 one) },
          ?_, by simp; omega, fun _ => made_nil hf (upd_restore (hf _ (Nat.le_refl _))) ?_, by simp⟩
        · simp [fqCreate, hP', n8a, n8b, bind, andThen, pure, pure', malloc, hg, ringWithMem, n28, free, upd_same, Ptr.add, setP, setN, getP, access, a0, a1]
        · intro c hc
          have : c ≠ h.next := by omega
          simp [upd, this]
      · have hh0 : ∃ h0 : Heap, andThen (malloc (16 + P)) (fun raw => andThen (setN raw 8 4 one) fun _ => pure' raw) h = some (.at h.next 0, h0) ∧
            h0.live h.next = some (16 + P) ∧ h0.live = upd h.live h.next (some (16 + P)) ∧
            (∀ c, c ≠ h.next → h0.pv c = h.pv c ∧ h0.bv c = h.bv c ∧ h0.nv c = h.nv c) := by
          simp [andThen, pure', malloc, hg, upd_same, setN, access, a1]
          intro c hc
          simp [upd, hc]
        obtain ⟨h0, e0, l0, m0, c0⟩ := hh0
        obtain ⟨h2, e2, q1, q2, q3, q4, q5, q6, q7⟩ := ringWithMem_run h0 h.next 16 P (16 + P) l0 (by omega) (by omega) hn
        have l2 : h2.live h.next = some (16 + P) := by rw [q1]; exact l0
        refine single_made (sz := 16 + P) (h' := { h2 with pv := upd h2.pv h.next (upd (h2.pv h.next) 0 (.at h.next 16)) })
          hf ⟨by omega, rfl⟩ ?_ ?_ ?_ ?_
        · simp [andThen, pure', malloc, hg, upd_same, setN, access, a1] at e0
          simp [fqCreate, n8a, n8b, bind, andThen, pure, pure', malloc, hg, hP', upd_same, setN, access, a1, e0, Ptr.add, e2, setP, getP, l2, a0]
        · show h2.live = _
          rw [q1]; exact m0
        · intro c hc
          obtain ⟨c1, c2, c3⟩ := c0 c hc
          refine ⟨?_, ?_, ?_⟩
          · simp [upd, hc, q5, c1]
          · show h2.bv c = _
            rw [q6, upd_ne _ _ hc, c2]
          · show h2.nv c = _
            rw [q7 c hc, c3]
        · intro h3 k1 k2 k3
          have p0 : h3.pv h.next 0 = .at h.next 16 := by rw [k2]; simp [upd]
          have b0 : h3.bv h.next 16 = false := by rw [k3]; show h2.bv h.next 16 = false; rw [q6]; simp [upd]
          obtain ⟨h4, e4, r1, r2, r3, r4⟩ := ringDestroy_foreign h3 h.next 16 (16 + P) k1 (by omega) b0
          have l4 : h4.live h.next = some (16 + P) := by rw [r1]; exact k1
          refine ⟨{ h4 with live := upd h4.live h.next none, pv := upd h4.pv h.next (upd (h4.pv h.next) 0 .null) }, ?_, ?_, ?_⟩
          · simp [fqDestroy, bind, andThen, pure, pure', getP, setP, free, access, k1, a0, p0, e4, l4]
          · show upd h4.live h.next none = _
            rw [r1]
          · intro c hc
            simp [upd, hc, r2, r3, r4 c hc]

theorem fq_idempotent : Idempotent fqDestroy := fun _ => ⟨rfl, rfl⟩

/-- **finding**: a second `msg_queue_destroy`, or one of a creation that failed, reads through a NULL pointer -/
theorem mq_destroy_twice (h : Heap) : mqDestroy (some .null) h = none := by
  simp [mqDestroy, bind, andThen, getP, access]

/-- **auto_cover_buf_create / auto_cover_buf_destroy** -/
theorem ac_life (h : Heap) (hf : Fresh h) (n : Nat) (lock : Bool) (hn : n ≤ 2 ^ 30) :
    AllOrNothing (acCreate n lock) acDestroy h (3 ≤ n ∧ h.grant h.calls = true ∧ h.grant (h.calls + 1) = true) := by
  cases hg : h.grant h.calls
  · refine ⟨.null, { h with calls := h.calls + 1 }, by simp [acCreate, bind, andThen, calloc, hg, pure, pure'], by simp,
      fun _ => made_nil hf rfl (fun _ _ => ⟨rfl, rfl, rfl⟩), by simp⟩
  · have hh1 : ∃ h1 : Heap, andThen (calloc 40) (fun c => andThen (if lock then setN c 16 24 0 else pure' ()) fun _ => pure' c) h
        = some (.at h.next 0, h1) ∧ h1.live = upd h.live h.next (some 40) ∧ h1.next = h.next + 1 ∧ h1.grant = h.grant ∧
        h1.calls = h.calls + 1 ∧ (∀ c, c ≠ h.next → h1.pv c = h.pv c ∧ h1.bv c = h.bv c ∧ h1.nv c = h.nv c) := by
      cases lock
      · simp [andThen, pure', calloc, hg]
        intro c hc
        simp [upd, hc]
      · simp [andThen, pure', calloc, hg, setN, access, upd_same]
        intro c hc
        simp [upd, hc]
    obtain ⟨h1, e1, l1, x1, g1, k1, c1⟩ := hh1
    have f1 : Fresh h1 := by
      intro b hb
      rw [l1, upd_ne _ _ (by omega)]
      exact hf b (by omega)
    have e1' : acCreate n lock h = (andThen (ringCreate n) fun r => andThen (setP (.at h.next 0) 0 r) fun _ =>
        andThen (getP (.at h.next 0) 0) fun r' => if r' = .null then andThen (free (.at h.next 0)) fun _ => pure' .null
          else andThen (getN r' 12 4) fun sz => andThen (setN (.at h.next 0) 8 4 sz) fun _ => pure' (.at h.next 0)) h1 := by
      cases lock
      · simp [andThen, pure', calloc, hg] at e1
        simp [acCreate, bind, pure, andThen, calloc, hg, e1]
      · simp [andThen, pure', calloc, hg, setN, access, upd_same] at e1
        simp [acCreate, bind, pure, andThen, calloc, hg, setN, access, upd_same, e1]
    by_cases hok : 3 ≤ n ∧ h.grant (h.calls + 1) = true
    · obtain ⟨up, h2, e2, h4, q1, q2, q3, q4, q5, q6⟩ := ringCreate_made h1 n hok.1 hn (by rw [g1, k1]; exact hok.2)
      rw [x1] at e2 q1 q5 q6
      have ne : h.next ≠ h.next + 1 := by omega
      have l2 : h2.live h.next = some 40 := by rw [q1, upd_ne _ _ ne, l1, upd_same]
      have l2' : h2.live (h.next + 1) = some (24 + up) := by rw [q1, upd_same]
      have a1 : 12 + 4 ≤ 24 + up := by omega
      refine ⟨.at h.next 0, { h2 with
        pv := upd h2.pv h.next (upd (h2.pv h.next) 0 (.at (h.next + 1) 0)),
        nv := upd h2.nv h.next (upd (h2.nv h.next) 8 (h2.nv (h.next + 1) 12)) }, ?_, by simp [hok], by simp,
        fun _ => ⟨[h.next, h.next + 1], by simp, ⟨by simp, ?_, ?_, ?_⟩, ?_⟩⟩
      · rw [e1']
        simp [andThen, pure', e2, setP, getP, getN, setN, access, l2, l2', a1, upd_same]
      · intro b hb
        simp only [List.mem_cons, List.not_mem_nil, or_false] at hb
        rcases hb with rfl | rfl
        · exact ⟨hf _ (by omega), by show h2.live _ ≠ none; rw [l2]; simp⟩
        · exact ⟨hf _ (by omega), by show h2.live _ ≠ none; rw [l2']; simp⟩
      · intro b hb
        simp only [List.mem_cons, List.not_mem_nil, or_false, not_or] at hb
        show h2.live b = _
        rw [q1, upd_ne _ _ hb.2, l1, upd_ne _ _ hb.1]
      · intro b hb
        have hlt := live_lt hf hb
        have n1 : b ≠ h.next := by omega
        have n2 : b ≠ h.next + 1 := by omega
        obtain ⟨y1, y2, y3⟩ := q6 b n2
        obtain ⟨z1, z2, z3⟩ := c1 b n1
        refine ⟨?_, ?_, ?_⟩
        · show upd h2.pv h.next _ b = _
          rw [upd_ne _ _ n1, y1, z1]
        · show h2.bv b = _
          rw [y2, z2]
        · show upd h2.nv h.next _ b = _
          rw [upd_ne _ _ n1, y3, z3]
      · intro h3 hk
        obtain ⟨w1, w2, _⟩ := hk h.next (by simp)
        obtain ⟨v1, v2, v3⟩ := hk (h.next + 1) (by simp)
        have w1' : h3.live h.next = some 40 := w1.trans l2
        have v1' : h3.live (h.next + 1) = some (24 + up) := v1.trans l2'
        have p0 : h3.pv h.next 0 = .at (h.next + 1) 0 := by rw [w2]; simp [upd]
        have b0 : h3.bv (h.next + 1) 0 = true := by rw [v3]; exact q5
        obtain ⟨h4', e4, r1, r2⟩ := ringDestroy_own h3 (h.next + 1) _ v1' (by omega) b0
        have l4 : h4'.live h.next = some 40 := by rw [r1, upd_ne _ _ ne]; exact w1'
        refine ⟨{ h4' with live := upd h4'.live h.next none, pv := upd h4'.pv h.next (upd (h4'.pv h.next) 0 .null) }, ?_, ?_, ?_⟩
        · simp [acDestroy, bind, andThen, pure, pure', getP, setP, free, access, w1', p0, e4, l4]
        · intro b
          show upd h4'.live h.next none b = _
          rw [r1]
          by_cases hb1 : b = h.next
          · simp [upd, hb1]
          · by_cases hb2 : b = h.next + 1
            · simp [upd, hb2]
            · simp [upd, hb1, hb2]
        · intro b hb
          simp only [List.mem_cons, List.not_mem_nil, or_false, not_or] at hb
          obtain ⟨y1, y2, y3⟩ := r2 b hb.2
          exact ⟨by show upd h4'.pv h.next _ b = _; rw [upd_ne _ _ hb.1, y1], y2, y3⟩
    · have hg2 : n < 3 ∨ h1.grant h1.calls = false := by
        rw [g1, k1]
        by_cases h3 : 3 ≤ n
        · right; cases hg' : h.grant (h.calls + 1)
          · rfl
          · exact absurd ⟨h3, hg'⟩ hok
        · left; omega
      obtain ⟨h2, e2, q1, q2, q3⟩ := ringCreate_null h1 n f1 hn hg2
      have l2 : h2.live h.next = some 40 := by rw [q1, l1, upd_same]
      refine ⟨.null, { h2 with live := upd h2.live h.next none, pv := upd h2.pv h.next (upd (h2.pv h.next) 0 .null) }, ?_, ?_,
        fun _ => made_nil hf ?_ ?_, by simp⟩
      · rw [e1']
        simp [andThen, pure', e2, setP, getP, free, access, l2, upd_same]
      · have : ¬ (3 ≤ n ∧ True ∧ h.grant (h.calls + 1) = true) := fun x => hok ⟨x.1, x.2.2⟩
        simpa using fun a b => this ⟨a, trivial, b⟩
      · show upd h2.live h.next none = _
        rw [q1, l1]; exact upd_restore (hf _ (Nat.le_refl _))
      · intro c hc
        have n1 : c ≠ h.next := by omega
        obtain ⟨y1, y2, y3⟩ := q3 c (by omega)
        obtain ⟨z1, z2, z3⟩ := c1 c n1
        exact ⟨by show upd h2.pv h.next _ c = _; rw [upd_ne _ _ n1, y1, z1], y2.trans z2, y3.trans z3⟩

theorem ac_idempotent : Idempotent acDestroy := fun _ => ⟨rfl, rfl⟩

/-! ## Objects that grow -/

/-- a builder: its own block and its buffer's -/
structure Sb (h0 h : Heap) (s b : Nat) : Prop where
  own : h.live s = some 24
  buf : ∃ n, h.live b = some n
  ptr : h.pv s 0 = .at b 0
  ne : s ≠ b
  s0 : h0.live s = none
  b0 : h0.live b = none
  rest : ∀ c, c ≠ s → c ≠ b → h.live c = h0.live c
  old : ∀ c, h0.live c ≠ none → h.pv c = h0.pv c ∧ h.bv c = h0.bv c ∧ h.nv c = h0.nv c
  fresh : ∀ c, h.next ≤ c → h.live c = none
  mono : h0.next ≤ h.next

theorem sb_grow_one {h0 h : Heap} {s b : Nat} (hf : Fresh h0) (i : Sb h0 h s b) (n : Nat) :
    ∃ r h' b', sbGrow (.at s 0) n h = some (r, h') ∧ Sb h0 h' s b' := by
  obtain ⟨m, hm⟩ := i.buf
  cases hg : h.grant h.calls
  · refine ⟨false, { h with calls := h.calls + 1 }, b, ?_, ⟨i.own, i.buf, i.ptr, i.ne, i.s0, i.b0, i.rest, i.old, i.fresh, i.mono⟩⟩
    simp [sbGrow, bind, andThen, pure, pure', getP, access, i.own, i.ptr, realloc, malloc, hg]
  · have hs : s ≠ h.next := by intro e; have := i.fresh s (by omega); rw [i.own] at this; cases this
    have hb : b ≠ h.next := by intro e; have := i.fresh b (by omega); rw [hm] at this; cases this
    have hne := i.ne
    have hnb : h.next ≠ b := fun e => hb e.symm
    refine ⟨true, { h with
      live := upd (upd h.live h.next (some n)) b none, next := h.next + 1, calls := h.calls + 1,
      pv := upd h.pv s (upd (h.pv s) 0 (.at h.next 0)), nv := upd h.nv s (upd (h.nv s) 8 n) }, h.next, ?_, ?_⟩
    · simp [sbGrow, bind, andThen, pure, pure', getP, setN, setP, access, i.own, i.ptr, realloc, malloc, hg, free, hm, hs, hb, hne, upd]
    · refine ⟨?_, ⟨n, ?_⟩, ?_, hs, i.s0, hf _ i.mono, ?_, ?_, ?_, ?_⟩
      · simp [upd, hs, hne, i.own]
      · simp [upd, hnb]
      · simp [upd]
      · intro c h1 h2
        by_cases h3 : c = b
        · subst h3; simp [upd, i.b0]
        · simp [upd, h2, h3, i.rest c h1 h3]
      · intro c hc
        have : c ≠ s := by intro e; rw [e] at hc; exact hc i.s0
        obtain ⟨y1, y2, y3⟩ := i.old c hc
        exact ⟨by simp [upd, this, y1], y2, by simp [upd, this, y3]⟩
      · intro c hc
        have hc' : h.next + 1 ≤ c := hc
        have h1 : c ≠ h.next := by omega
        have := i.fresh c (by omega)
        by_cases h3 : c = b
        · simp [upd, h3]
        · simp [upd, h1, h3, this]
      · show h0.next ≤ h.next + 1
        have := i.mono
        omega

theorem sb_grow_all {h0 : Heap} {s : Nat} (hf : Fresh h0) : ∀ (ns : List Nat) {h : Heap} {b : Nat}, Sb h0 h s b →
    ∃ h' b', sbGrows (.at s 0) ns h = some ((), h') ∧ Sb h0 h' s b' := by
  intro ns
  induction ns with
  | nil => intro h b i; exact ⟨h, b, rfl, i⟩
  | cons n ns ih =>
    intro h b i
    obtain ⟨r, h1, b1, e1, i1⟩ := sb_grow_one hf i n
    obtain ⟨h2, b2, e2, i2⟩ := ih i1
    refine ⟨h2, b2, ?_, i2⟩
    simp [sbGrows, bind, andThen, e1, e2]

/-- **stringbuilder_create / stringbuilder_destroy**: a builder exactly if both blocks were granted, otherwise nothing is
kept; however often and to whatever sizes it grows, or growing is refused, destroying it gives back everything -/
theorem sb_life (h : Heap) (hf : Fresh h) (n : Nat) :
    ∃ p h', sbCreate n h = some (p, h') ∧ (p ≠ .null ↔ h.grant h.calls = true ∧ h.grant (h.calls + 1) = true) ∧
      (p = .null → Restored h h') ∧
      (p ≠ .null → ∀ ns, ∃ h2 h3, sbGrows p ns h' = some ((), h2) ∧ sbDestroy (some p) h2 = some (some .null, h3) ∧ Restored h h3) := by
  cases hg : h.grant h.calls
  · refine ⟨.null, { h with calls := h.calls + 1 }, by simp [sbCreate, bind, andThen, malloc, hg, pure, pure'], by simp,
      fun _ => ⟨rfl, fun _ _ => ⟨rfl, rfl, rfl⟩⟩, by simp⟩
  · cases hg2 : h.grant (h.calls + 1)
    · refine ⟨.null, { h with live := upd (upd h.live h.next (some 24)) h.next none, next := h.next + 1, calls := h.calls + 1 + 1 },
        by simp [sbCreate, bind, andThen, malloc, hg, hg2, pure, pure', free, upd_same], by simp,
        fun _ => ⟨upd_restore (hf _ (Nat.le_refl _)), fun _ _ => ⟨rfl, rfl, rfl⟩⟩, by simp⟩
    · have hs : (if n < 2 then 128 else n) ≥ 1 := by split <;> omega
      have hk : ∃ k, k = (if n < 2 then 128 else n) := ⟨_, rfl⟩
      obtain ⟨k, hk⟩ := hk
      rw [← hk] at hs
      have k1 : 1 ≤ k := hs
      have hex : ∃ h', sbCreate n h = some (.at h.next 0, h') ∧ Sb h h' h.next (h.next + 1) := by
        refine ⟨{ h with
          live := upd (upd h.live h.next (some 24)) (h.next + 1) (some k), next := h.next + 1 + 1, calls := h.calls + 1 + 1,
          pv := upd h.pv h.next (upd (h.pv h.next) 0 (.at (h.next + 1) 0)),
          nv := upd (upd (upd h.nv h.next (upd (h.nv h.next) 8 k)) (h.next + 1) (upd (h.nv (h.next + 1)) 0 0)) h.next
            (upd (upd (h.nv h.next) 8 k) 16 0) }, ?_, ?_⟩
        · simp [sbCreate, bind, andThen, malloc, hg, hg2, pure, pure', ← hk, setN, setP, access, upd, k1]
        · refine ⟨by simp [upd], ⟨k, by simp [upd]⟩, by simp [upd], by omega, hf _ (by omega), hf _ (by omega), ?_, ?_, ?_, ?_⟩
          · intro c h1 h2; simp [upd, h1, h2]
          · intro c hc
            have hlt := live_lt hf hc
            have n1 : c ≠ h.next := by omega
            have n2 : c ≠ h.next + 1 := by omega
            simp [upd, n1, n2]
          · intro c hc
            have hc' : h.next + 1 + 1 ≤ c := hc
            have n1 : c ≠ h.next := by omega
            have n2 : c ≠ h.next + 1 := by omega
            simp [upd, n1, n2, hf c (by omega)]
          · show h.next ≤ h.next + 1 + 1
            omega
      obtain ⟨h', e, i⟩ := hex
      refine ⟨_, h', e, by simp, by simp, fun _ ns => ?_⟩
      obtain ⟨h2, b, e2, i2⟩ := sb_grow_all hf ns i
      obtain ⟨m, hm⟩ := i2.buf
      have hne := i2.ne
      refine ⟨h2, { h2 with live := upd (upd h2.live b none) h.next none, pv := upd h2.pv h.next (upd (h2.pv h.next) 0 .null) },
        e2, ?_, ?_, ?_⟩
      · simp [sbDestroy, bind, andThen, pure, pure', getP, setP, free, access, i2.own, i2.ptr, hm, upd, hne]
      · funext c
        by_cases h1 : c = h.next
        · subst h1; simp [upd, i2.s0]
        · by_cases h3 : c = b
          · subst h3; simp [upd, h1, i2.b0]
          · simp [upd, h1, h3, i2.rest c h1 h3]
      · intro c hc
        have hlt := live_lt hf hc
        have n1 : c ≠ h.next := by omega
        obtain ⟨y1, y2, y3⟩ := i2.old c hc
        exact ⟨by simp [upd, n1, y1], y2, y3⟩

theorem sb_idempotent : Idempotent sbDestroy := fun _ => ⟨rfl, rfl⟩

/-- an array: its own block, and its storage inside it or in a block of its own -/
structure Arr (h0 h : Heap) (a : Nat) (d : Option Nat) : Prop where
  own : ∃ n, h.live a = some n ∧ 32 ≤ n
  ptr : h.pv a 24 = match d with | none => .at a 32 | some b => .at b 0
  sto : ∀ b, d = some b → (∃ n, h.live b = some n) ∧ b ≠ a ∧ h0.live b = none
  a0 : h0.live a = none
  rest : ∀ c, c ≠ a → d ≠ some c → h.live c = h0.live c
  old : ∀ c, h0.live c ≠ none → h.pv c = h0.pv c ∧ h.bv c = h0.bv c ∧ h.nv c = h0.nv c
  fresh : ∀ c, h.next ≤ c → h.live c = none
  mono : h0.next ≤ h.next

theorem arr_grow_one {h0 h : Heap} {a : Nat} {d : Option Nat} (hf : Fresh h0) (i : Arr h0 h a d) :
    ∃ r h' d', arrGrow (.at a 0) h = some (r, h') ∧ Arr h0 h' a d' := by
  obtain ⟨sz, hsz, h32⟩ := i.own
  have a1 : 16 + 8 ≤ sz := by omega
  have a2 : 8 ≤ sz := by omega
  have a3 : 24 + 8 ≤ sz := by omega
  cases hg : h.grant h.calls
  · refine ⟨false, { h with calls := h.calls + 1 }, d, ?_, ⟨i.own, i.ptr, i.sto, i.a0, i.rest, i.old, i.fresh, i.mono⟩⟩
    simp [arrGrow, bind, andThen, pure, pure', getP, getN, access, hsz, a1, a2, a3, realloc, malloc, hg]
  · have hs : a ≠ h.next := by intro e; have := i.fresh a (by omega); rw [hsz] at this; cases this
    have hs' : h.next ≠ a := fun e => hs e.symm
    have key : ∀ live' : Nat → Option Nat, live' a = some sz → live' h.next = some ((h.nv a 16 + h.nv a 16 / 2) % 2 ^ 64 * h.nv a 0 % 2 ^ 64) →
        (∀ c, c ≠ a → c ≠ h.next → live' c = h0.live c) →
        Arr h0 { h with
          live := live', next := h.next + 1, calls := h.calls + 1,
          pv := upd h.pv a (upd (h.pv a) 24 (.at h.next 0)),
          nv := upd h.nv a (upd (h.nv a) 16 ((h.nv a 16 + h.nv a 16 / 2) % 2 ^ 64)) } a (some h.next) := by
      intro live' k1 k2 k3
      refine ⟨⟨sz, k1, h32⟩, by simp [upd], ?_, i.a0, ?_, ?_, ?_, ?_⟩
      · rintro b hb
        cases hb
        exact ⟨⟨_, k2⟩, hs', hf _ i.mono⟩
      · intro c h1 h2
        exact k3 c h1 (fun e => h2 (by rw [e]))
      · intro c hc
        have : c ≠ a := by intro e; rw [e] at hc; exact hc i.a0
        obtain ⟨y1, y2, y3⟩ := i.old c hc
        exact ⟨by simp [upd, this, y1], y2, by simp [upd, this, y3]⟩
      · intro c hc
        have hc' : h.next + 1 ≤ c := hc
        have h1 : c ≠ h.next := by omega
        have hm := i.mono
        by_cases h2 : c = a
        · have := i.fresh c (by omega); rw [h2, hsz] at this; cases this
        · show live' c = none
          rw [k3 c h2 h1]
          exact hf c (by omega)
      · show h0.next ≤ h.next + 1
        have := i.mono
        omega
    cases d with
    | none =>
      have hp : h.pv a 24 = .at a 32 := i.ptr
      refine ⟨true, _, some h.next, ?_, key (upd h.live h.next (some ((h.nv a 16 + h.nv a 16 / 2) % 2 ^ 64 * h.nv a 0 % 2 ^ 64))) ?_ ?_ ?_⟩
      · simp [arrGrow, bind, andThen, pure, pure', getP, getN, setP, setN, access, hsz, a1, a2, a3, realloc, malloc, hg, hp, Ptr.add, free, upd, hs]
      · simp [upd, hs, hsz]
      · simp [upd]
      · intro c h1 h2
        simp [upd, h2, i.rest c h1 (by simp)]
    | some b =>
      have hp : h.pv a 24 = .at b 0 := i.ptr
      obtain ⟨⟨m, hm⟩, hba, hb0⟩ := i.sto b rfl
      have hbn : b ≠ h.next := by intro e; have := i.fresh b (by omega); rw [hm] at this; cases this
      have hnb : h.next ≠ b := fun e => hbn e.symm
      have hab : a ≠ b := fun e => hba e.symm
      refine ⟨true, _, some h.next, ?_, key (upd (upd h.live h.next (some ((h.nv a 16 + h.nv a 16 / 2) % 2 ^ 64 * h.nv a 0 % 2 ^ 64))) b none) ?_ ?_ ?_⟩
      · simp [arrGrow, bind, andThen, pure, pure', getP, getN, setP, setN, access, hsz, a1, a2, a3, realloc, malloc, hg, hp, Ptr.add, free, upd, hs, hba, hm, hbn, hab]
      · simp [upd, hs, hsz, hab]
      · simp [upd, hnb]
      · intro c h1 h2
        by_cases h3 : c = b
        · subst h3; simp [upd, hb0]
        · simp [upd, h2, h3, i.rest c h1 (fun e => h3 (Option.some.inj e).symm)]

theorem arr_grow_all {h0 : Heap} {a : Nat} (hf : Fresh h0) : ∀ (k : Nat) {h : Heap} {d : Option Nat}, Arr h0 h a d →
    ∃ h' d', arrGrows (.at a 0) k h = some ((), h') ∧ Arr h0 h' a d' := by
  intro k
  induction k with
  | zero => intro h b i; exact ⟨h, b, rfl, i⟩
  | succ k ih =>
    intro h b i
    obtain ⟨r, h1, b1, e1, i1⟩ := arr_grow_one hf i
    obtain ⟨h2, b2, e2, i2⟩ := ih i1
    refine ⟨h2, b2, ?_, i2⟩
    simp [arrGrows, bind, andThen, e1, e2]

/-- **array_new / array_free**: an array exactly if its block was granted; however often it grows, or growing is refused,
freeing it gives back everything.  The element size times the capacity must not overflow. -/
theorem arr_life (h : Heap) (hf : Fresh h) (es cap : Nat) (ho : 32 + es * (if cap < 4 then 4 else cap) < 2 ^ 64) :
    ∃ p h', arrNew es cap h = some (p, h') ∧ (p ≠ .null ↔ h.grant h.calls = true) ∧
      (p = .null → Restored h h') ∧
      (p ≠ .null → ∀ k, ∃ h2 h3, arrGrows p k h' = some ((), h2) ∧ arrFree p h2 = some ((), h3) ∧ Restored h h3) := by
  cases hg : h.grant h.calls
  · refine ⟨.null, { h with calls := h.calls + 1 }, by simp [arrNew, bind, andThen, calloc, hg, pure, pure'], by simp,
      fun _ => ⟨rfl, fun _ _ => ⟨rfl, rfl, rfl⟩⟩, by simp⟩
  · have hk : ∃ k, k = (if cap < 4 then 4 else cap) := ⟨_, rfl⟩
    obtain ⟨k, hk⟩ := hk
    rw [← hk] at ho
    have hex : ∃ h', arrNew es cap h = some (.at h.next 0, h') ∧ Arr h h' h.next none := by
      have hm : (32 + es * k % 2 ^ 64) % 2 ^ 64 = 32 + es * k := by
        rw [Nat.mod_eq_of_lt (a := es * k) (by omega), Nat.mod_eq_of_lt ho]
      have hm' : (32 + es * k % 18446744073709551616) % 18446744073709551616 = 32 + es * k := hm
      have a1 : 8 ≤ 32 + es * k := by omega
      have a2 : 16 + 8 ≤ 32 + es * k := by omega
      have a3 : 24 + 8 ≤ 32 + es * k := by omega
      refine ⟨{ h with
        live := upd h.live h.next (some (32 + es * k)), next := h.next + 1, calls := h.calls + 1,
        pv := upd (upd h.pv h.next (fun _ => .null)) h.next (upd (fun _ => .null) 24 (.at h.next 32)),
        bv := upd h.bv h.next (fun _ => false),
        nv := upd (upd (upd h.nv h.next (fun _ => 0)) h.next (upd (fun _ => 0) 0 es)) h.next (upd (upd (fun _ => 0) 0 es) 16 k) }, ?_, ?_⟩
      · simp [arrNew, bind, andThen, calloc, hg, pure, pure', ← hk, hm, setN, setP, access, upd_same, a1, a2, a3, Ptr.add]
      · refine ⟨⟨32 + es * k, by simp [upd], by omega⟩, by simp [upd], nofun, hf _ (by omega), ?_, ?_, ?_, ?_⟩
        · intro c h1 _; simp [upd, h1]
        · intro c hc
          have hlt := live_lt hf hc
          have n1 : c ≠ h.next := by omega
          simp [upd, n1]
        · intro c hc
          have hc' : h.next + 1 ≤ c := hc
          have n1 : c ≠ h.next := by omega
          simp [upd, n1, hf c (by omega)]
        · show h.next ≤ h.next + 1
          omega
    obtain ⟨h', e, i⟩ := hex
    refine ⟨_, h', e, by simp, by simp, fun _ g => ?_⟩
    obtain ⟨h2, d, e2, i2⟩ := arr_grow_all hf g i
    obtain ⟨sz, hsz, h32⟩ := i2.own
    have a3 : 24 + 8 ≤ sz := by omega
    have old : ∀ c, h.live c ≠ none → h2.pv c = h.pv c ∧ h2.bv c = h.bv c ∧ h2.nv c = h.nv c := i2.old
    cases d with
    | none =>
      have hp : h2.pv h.next 24 = .at h.next 32 := i2.ptr
      refine ⟨h2, { h2 with live := upd h2.live h.next none }, e2, ?_, ?_, old⟩
      · simp [arrFree, bind, andThen, getP, access, hsz, a3, hp, Ptr.add, free]
      · funext c
        by_cases h1 : c = h.next
        · subst h1; simp [upd, i2.a0]
        · simp [upd, h1, i2.rest c h1 (by simp)]
    | some b =>
      have hp : h2.pv h.next 24 = .at b 0 := i2.ptr
      obtain ⟨⟨m, hm⟩, hba, hb0⟩ := i2.sto b rfl
      have hab : h.next ≠ b := fun e => hba e.symm
      refine ⟨h2, { h2 with live := upd (upd h2.live b none) h.next none }, e2, ?_, ?_, old⟩
      · simp [arrFree, bind, andThen, getP, access, hsz, a3, hp, Ptr.add, free, hm, hba, upd, hab]
      · funext c
        by_cases h1 : c = h.next
        · subst h1; simp [upd, i2.a0]
        · by_cases h3 : c = b
          · subst h3; simp [upd, h1, hb0]
          · simp [upd, h1, h3, i2.rest c h1 (fun e => h3 (Option.some.inj e).symm)]

/-- **finding**: an element size whose product with the capacity overflows yields an array with no room at all for elements -/
theorem arr_overflow (h : Heap) (hg : h.grant h.calls = true) :
    ∃ h', arrNew (2 ^ 62) 16 h = some (.at h.next 0, h') ∧ h'.live h.next = some 32 ∧ h'.nv h.next 16 = 16 := by
  simp [arrNew, bind, andThen, calloc, hg, pure, pure', setN, setP, access, upd]

/-- **RingBuffer_create_with_mem** in memory of the caller's (a block of `sz` bytes): no memory is taken, and destroying the
ring frees none, whatever happened to the numbers in it -/
theorem ring_with_mem_life (h : Heap) (b n sz : Nat) (hb : h.live b = some sz) (hs : n ≤ sz) (hn : 28 ≤ n) (hn2 : n ≤ 2 ^ 30 + 24) :
    ∃ h', ringWithMem (.at b 0) n h = some (.at b 0, h') ∧ h'.live = h.live ∧
      ∀ h2, Kept h' h2 [b] → ∃ h3, ringDestroy (some (.at b 0)) h2 = some (some .null, h3) ∧ h3.live = h2.live := by
  obtain ⟨h', e, q1, _, _, _, _, q6, _⟩ := ringWithMem_run h b 0 n sz hb (by omega) hn hn2
  refine ⟨h', e, q1, fun h2 hk => ?_⟩
  obtain ⟨k1, _, k3⟩ := hk b (by simp)
  obtain ⟨h3, e3, r1, _⟩ := ringDestroy_foreign h2 b 0 sz (by rw [k1, q1]; exact hb) (by omega) (by rw [k3, q6]; simp [upd])
  exact ⟨h3, e3, r1⟩

/-- a block too small, or none: NULL, and nothing was written -/
theorem ring_with_mem_small (h : Heap) (p : Ptr) (n : Nat) (hp : p = .null ∨ n < 28) : ringWithMem p n h = some (.null, h) := by
  unfold ringWithMem
  by_cases h1 : p = .null
  · rw [if_pos h1]; rfl
  · rw [if_neg h1, if_pos (by rcases hp with h2 | h2; exact absurd h2 h1; omega)]; rfl

/-! ## The statements are not empty -/

def empty (g : Nat → Bool) : Heap := ⟨fun _ => none, fun _ _ => .null, fun _ _ => true, fun _ _ => 7, 0, g, 0⟩

theorem empty_fresh (g : Nat → Bool) : Fresh (empty g) := fun _ _ => rfl

/-- with everything granted each constructor answers a handle -/
theorem example_granted : (3 ≤ 4096 ∧ (empty fun _ => true).grant (empty fun _ => true).calls = true) ∧ 28 ≤ 8 * 16 % 2 ^ 32 ∧
    ((ringCreate 4096 (empty fun _ => true)).map fun r => r.1) = some (.at 0 0) ∧
    ((acCreate 4096 true (empty fun _ => true)).map fun r => r.1) = some (.at 0 0) ∧
    ((fqCreate 8 16 (empty fun _ => true)).map fun r => r.1) = some (.at 0 0) := by decide +kernel

/-- the second block is refused -/
theorem example_refused :
    ((acCreate 4096 true (empty fun k => k == 0)).map fun r => (r.1, r.2.live 0, r.2.live 1, r.2.calls)) = some (.null, none, none, 2) ∧
    ((sbCreate 64 (empty fun k => k == 0)).map fun r => (r.1, r.2.live 0, r.2.live 1, r.2.calls)) = some (.null, none, none, 2) := by
  decide +kernel

end Verif.ObjLife
