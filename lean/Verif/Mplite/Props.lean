import Verif.Mplite.Steps
/-!
# mplite: the theorems (C37 - C40)
-/
namespace Verif.Mplite

/-! ### C37 -/

/-- `mplite_init` accepts any buffer contents. -/
theorem mplite_init_runs {bufSize minAlloc : Nat} (hp : GoodParams bufSize minAlloc) (mem : Nat → Byte) :
    ∃ s, init mem bufSize minAlloc = some (some s) ∧ Reach bufSize minAlloc s Ledger.empty := by
  obtain ⟨s, h1, _⟩ := RInv.init hp mem
  exact ⟨s, h1, Reach.init h1⟩

/-- No legal call, after any history, reads or writes outside the buffer, fails an ASSERT or overflows. -/
theorem mplite_never_faults {bufSize minAlloc : Nat} (hp : GoodParams bufSize minAlloc) {s : St} {L : Ledger}
    (h : Reach bufSize minAlloc s L) {op : Op} (hl : Legal L op) :
    ∃ s' r, exec s op = some (s', r) ∧ Reach bufSize minAlloc s' (L.after (atomOf minAlloc) op r) := by
  obtain ⟨s', r, h1, _⟩ := (h.inv hp).step hl
  exact ⟨s', r, h1, Reach.step h hl h1⟩

/-- Held blocks: big enough, of size `atom * 2 ^ k`, aligned to their size, inside the pool, which ends before
the control bytes, which end inside the buffer; and mutually disjoint. -/
theorem mplite_blocks {bufSize minAlloc : Nat} (hp : GoodParams bufSize minAlloc) {s : St} {L : Ledger}
    (h : Reach bufSize minAlloc s L) :
    (∀ b ∈ L.live, b.req ≤ b.size ∧ 0 < b.req ∧ b.size ∣ b.off ∧ (∃ k, b.size = atomOf minAlloc * 2 ^ k) ∧
      b.off + b.size ≤ atoms bufSize minAlloc * atomOf minAlloc) ∧
    L.live.Pairwise (fun a b => a.off + a.size ≤ b.off ∨ b.off + b.size ≤ a.off) ∧
    atoms bufSize minAlloc * atomOf minAlloc + atoms bufSize minAlloc ≤ bufSize := by
  have hi := h.inv hp
  obtain ⟨fr, hinv⟩ := hi.inv
  refine ⟨?_, held_disjoint hinv hi.good, ?_⟩
  · intro b hb
    have g := hi.good b hb
    obtain ⟨b1, b2, k, _, b3⟩ := hi.bounds hb
    rw [hi.atom] at b1 b3
    rw [hi.nB] at b1
    exact ⟨g.req, g.pos, b2, ⟨k, b3⟩, b1⟩
  · have := hinv.core.geo.tot
    rw [hi.atom, hi.nB, hi.buf] at this
    exact this

/-- What the client stored in a block it holds (or `calloc` zeroed, or `realloc` copied) is there. -/
theorem mplite_contents {bufSize minAlloc : Nat} (hp : GoodParams bufSize minAlloc) {s : St} {L : Ledger}
    (h : Reach bufSize minAlloc s L) {b : Blk} (hb : b ∈ L.live) {j : Nat} {v : Byte} (hj : b.data j = some v) :
    j < b.size ∧ s.mem (b.off + j) = v :=
  ((h.inv hp).good b hb).data j v hj

/-- `mplite_size` and `mplite_roundup` tell the truth. -/
theorem mplite_size_exact {bufSize minAlloc : Nat} (hp : GoodParams bufSize minAlloc) {s : St} {L : Ledger}
    (h : Reach bufSize minAlloc s L) {b : Blk} (hb : b ∈ L.live) : size s b.off = some b.size :=
  (h.inv hp).size hb

theorem RInv.round {bufSize minAlloc : Nat} {s : St} {L : Ledger} (h : RInv bufSize minAlloc s L) {n : Nat}
    (hn : n ≤ 1073741824) : ∃ l, l ≤ 30 ∧ roundLoop 32 s.szAtom 0 n = some (s.szAtom * 2 ^ l, l) ∧
      fit (atomOf minAlloc) n = s.szAtom * 2 ^ l ∧ n ≤ s.szAtom * 2 ^ l ∧ (l = 0 ∨ s.szAtom * 2 ^ (l - 1) < n) := by
  obtain ⟨fr, hinv⟩ := h.inv
  have ha := hinv.core.geo.atom
  have := h.szSmall
  obtain ⟨l, r1, r2, r3, r4⟩ := roundLoop_spec (sz := s.szAtom) (n := n) (by omega) (by omega) (by omega) 32 0 (by omega)
    (Or.inl rfl)
  simp only [Nat.pow_zero, Nat.mul_one] at r1
  have hl30 : l ≤ 30 := by
    apply pow_lt_log
    have : 1 * 2 ^ l ≤ s.szAtom * 2 ^ l := Nat.mul_le_mul_right _ (by omega)
    omega
  exact ⟨l, hl30, r1, by rw [← h.atom]; exact fit_eq r2 r3 hl30, r2, r3⟩

theorem mplite_roundup_exact {bufSize minAlloc : Nat} (hp : GoodParams bufSize minAlloc) {s : St} {L : Ledger}
    (h : Reach bufSize minAlloc s L) (n : Int) :
    roundup s n = some (if Acceptable n then fit (atomOf minAlloc) n.toNat else 0) := by
  unfold roundup MAXALLOC
  by_cases hn : Acceptable n
  · have hn' : 0 < n ∧ n ≤ 1073741824 := hn
    obtain ⟨l, h1, h2, h3, _⟩ := (h.inv hp).round (n := n.toNat) (by omega)
    rw [if_neg (by omega), if_pos hn, h2, h3]; rfl
  · have hn' : ¬ (0 < n ∧ n ≤ 1073741824) := hn
    rw [if_pos (by omega), if_neg hn]

/-- `fit` is what it should be: at least the request, and at most twice it or one atom. -/
theorem mplite_fit_bounds {bufSize minAlloc : Nat} (hp : GoodParams bufSize minAlloc) {s : St} {L : Ledger}
    (h : Reach bufSize minAlloc s L) {n : Nat} (hn : n ≤ 1073741824) :
    n ≤ fit (atomOf minAlloc) n ∧ (fit (atomOf minAlloc) n = atomOf minAlloc ∨ fit (atomOf minAlloc) n < 2 * n) := by
  have hi := h.inv hp
  obtain ⟨l, _, _, h3, h4, h5⟩ := hi.round hn
  rw [h3]
  refine ⟨h4, ?_⟩
  rcases h5 with rfl | h5
  · left; rw [hi.atom]; simp
  · right
    by_cases hl : l = 0
    · subst hl; simp at h5 ⊢; omega
    · have : s.szAtom * 2 ^ l = 2 * (s.szAtom * 2 ^ (l - 1)) := by
        conv => lhs; rw [show l = l - 1 + 1 by omega]
        rw [Nat.pow_succ, ← Nat.mul_assoc, Nat.mul_comm]
      omega

/-! ### C39 -/

/-- The statistics are those of the history. -/
theorem mplite_stats_exact {bufSize minAlloc : Nat} (hp : GoodParams bufSize minAlloc) {s : St} {L : Ledger}
    (h : Reach bufSize minAlloc s L) :
    s.currentOut = heldBytes L.live ∧ s.currentCount = L.live.length ∧ s.maxOut = L.peakOut ∧
    s.maxCount = L.peakCount ∧ s.maxRequest = L.largest ∧ s.nAlloc = L.count % 2 ^ 64 ∧
    s.totalAlloc = L.given % 2 ^ 64 ∧ s.totalExcess = L.excess % 2 ^ 64 := by
  have hi := h.inv hp
  exact ⟨hi.curOut, hi.curCount, hi.maxOut, hi.maxCount, hi.maxReq, hi.nAlloc, hi.totalAlloc, hi.totalExcess⟩

/-! ### C38 -/

theorem walk_eq {s : St} (g : Geo s) : ∀ {xs : List Nat} {p : Int} {fuel : Nat}, Seg s p xs (-1) →
    (∀ x ∈ xs, x < s.nBlock) → xs.length < fuel → walk s fuel (first xs (-1)) = some xs.length ∧
      chain s fuel (first xs (-1)) = some xs
  | [], _, 0, _, _, h => by simp at h
  | [], _, fuel + 1, _, _, _ => by
    rw [show first [] (-1) = -1 from rfl]
    unfold walk chain
    exact ⟨if_pos rfl, if_pos rfl⟩
  | x :: xs, _, 0, _, _, h => by simp at h
  | x :: xs, _, fuel + 1, hs, hx, h => by
    obtain ⟨_, h2, h3⟩ := hs
    rw [show first (x :: xs) (-1) = (x : Int) from rfl]
    unfold walk chain
    have hne : ¬ ((x : Int) = -1) := by omega
    have hp : (0 : Int) ≤ x := by omega
    obtain ⟨i1, i2⟩ := walk_eq g h3 (fun y hy => hx y (by simp [hy])) (fuel := fuel) (by simp at h; omega)
    rw [if_neg hne, if_neg hne, if_pos hp, if_pos hp, Int.toNat_natCast, getNext_eq g (hx x (by simp)),
      Option.bind_some, Option.bind_some, h2, i1, i2]
    exact ⟨rfl, rfl⟩

theorem len_le_freeSum (fr : Nat → List Nat) : ∀ (m l : Nat), l < m → (fr l).length ≤ freeSum fr m
  | 0, l, h => by omega
  | m + 1, l, h => by
    unfold freeSum
    by_cases hl : l = m
    · subst hl
      have h2 : 0 < 2 ^ l := Nat.pow_pos (by decide)
      have := Nat.mul_le_mul_left (fr l).length (show 1 ≤ 2 ^ l from h2)
      omega
    · have := len_le_freeSum fr m l (by omega)
      omega

theorem Inv.lists {s : St} {fr : Nat → List Nat} {out : List (Nat × Nat)} (h : Inv s fr out) (l : Nat) :
    walk s (s.nBlock + 1) (s.flist l) = some (fr l).length ∧ freeBlocks s l = some (fr l) := by
  have t := h.core.til
  have hlen : (fr l).length < s.nBlock + 1 := by
    by_cases hl : l < 31
    · have := len_le_freeSum fr 31 l hl
      have := t.total
      omega
    · cases hf : fr l with
      | nil => simp
      | cons x xs =>
        have := t.log (i := x) (l := l) (Or.inl (by rw [hf]; simp))
        omega
  unfold freeBlocks
  rw [h.core.head]
  exact walk_eq h.core.geo (h.core.seg l) (fun x hx => t.lt (Or.inl hx)) hlen

theorem freememLoop_eq {s : St} {fr : Nat → List Nat} {out : List (Nat × Nat)} (h : Inv s fr out) :
    ∀ (k l : Nat), ∃ t, freememLoop s k l = some t ∧ freeSum fr l + t = freeSum fr (l + k)
  | 0, l => ⟨0, rfl, rfl⟩
  | k + 1, l => by
    obtain ⟨t, h1, h2⟩ := freememLoop_eq h k (l + 1)
    unfold freememLoop
    rw [(h.lists l).1, Option.bind_some, h1, Option.map_some]
    refine ⟨_, rfl, ?_⟩
    rw [show l + (k + 1) = l + 1 + k by omega, ← h2]
    conv => rhs; unfold freeSum
    omega

/-- `mplite_freemem` and the bytes held add up to the pool. -/
theorem mplite_freemem_exact {bufSize minAlloc : Nat} (hp : GoodParams bufSize minAlloc) {s : St} {L : Ledger}
    (h : Reach bufSize minAlloc s L) :
    ∃ f, freemem s = some f ∧ f + heldBytes L.live = atoms bufSize minAlloc * atomOf minAlloc := by
  have hi := h.inv hp
  obtain ⟨fr, hinv⟩ := hi.inv
  obtain ⟨t, h1, h2⟩ := freememLoop_eq hinv 31 0
  have h3 := hinv.core.til.total
  rw [show freeSum fr 0 = 0 from rfl, Nat.zero_add, Nat.zero_add] at h2
  refine ⟨t * s.szAtom, ?_, ?_⟩
  · unfold freemem
    rw [show LOGMAX + 1 = 31 from rfl, h1]; rfl
  · rw [← heldBytes_outSum hi.good, ← hi.atom, ← hi.nB, ← Nat.add_mul, h2, h3]

theorem maxmemLoop_spec (s : St) : ∀ k,
    (maxmemLoop s k = 0 ∧ ∀ j < k, s.flist j = -1) ∨
    (∃ m < k, s.flist m ≠ -1 ∧ maxmemLoop s k = 2 ^ m * s.szAtom ∧ ∀ j < k, m < j → s.flist j = -1)
  | 0 => Or.inl ⟨rfl, fun j hj => by omega⟩
  | k + 1 => by
    unfold maxmemLoop
    by_cases h : s.flist k ≠ -1
    · rw [if_pos h]
      exact Or.inr ⟨k, by omega, h, rfl, fun j h1 h2 => by omega⟩
    · rw [if_neg h]
      have hk : s.flist k = -1 := Classical.byContradiction fun hc => h hc
      rcases maxmemLoop_spec s k with ⟨h1, h2⟩ | ⟨m, h1, h2, h3, h4⟩
      · left
        refine ⟨h1, fun j hj => ?_⟩
        by_cases hjk : j = k
        · rw [hjk]; exact hk
        · exact h2 j (by omega)
      · right
        refine ⟨m, by omega, h2, h3, fun j hj hm => ?_⟩
        by_cases hjk : j = k
        · rw [hjk]; exact hk
        · exact h4 j (by omega) hm

theorem Inv.flist_empty {s : St} {fr : Nat → List Nat} {out : List (Nat × Nat)} (h : Inv s fr out) (l : Nat) :
    s.flist l = -1 ↔ fr l = [] := by
  rw [h.core.head]
  cases fr l with
  | nil => exact ⟨fun _ => rfl, fun _ => rfl⟩
  | cons x xs =>
    rw [show first (x :: xs) (-1) = (x : Int) from rfl]
    constructor
    · intro e; omega
    · intro e; simp at e

/-! ### C40 -/

/-- A window of the pool without held bytes, aligned to its size `szAtom * 2 ^ l`, is part of a free block. -/
theorem RInv.window {bufSize minAlloc : Nat} {s : St} {L : Ledger} (h : RInv bufSize minAlloc s L)
    {fr : Nat → List Nat} (hinv : Inv s fr (L.live.map (toOut s.szAtom))) {l a : Nat}
    (h1 : s.szAtom * 2 ^ l ∣ a) (h2 : a + s.szAtom * 2 ^ l ≤ s.nBlock * s.szAtom) (h3 : Unheld L a (s.szAtom * 2 ^ l)) :
    ∃ k, l ≤ k ∧ fr k ≠ [] := by
  have ha := hinv.core.geo.atom
  obtain ⟨c, rfl⟩ := h1
  have e1 : s.szAtom * 2 ^ l * c = (2 ^ l * c) * s.szAtom := by rw [Nat.mul_assoc, Nat.mul_comm]
  have e2 : (2 ^ l * c) * s.szAtom + s.szAtom * 2 ^ l = (2 ^ l * c + 2 ^ l) * s.szAtom := by
    rw [Nat.add_mul, Nat.mul_comm s.szAtom]
  rw [e1, e2] at h2
  unfold Unheld at h3
  rw [e1, e2] at h3
  obtain ⟨i, k, f1, f2, f3⟩ := hinv.core.til.range_in_free hinv.coal l (2 ^ l * c) (Nat.dvd_mul_right _ _)
    (Nat.le_of_mul_le_mul_right h2 (by omega)) (by
      intro x hx1 hx2 o ho
      obtain ⟨b, hb, rfl⟩ := List.mem_map.mp ho
      have g := h.good b hb
      rintro ⟨q1, q2⟩
      have := h3 b hb
      rw [g.end, g.off] at this
      have hpb : 0 < 2 ^ (toOut s.szAtom b).2 := Nat.pow_pos (by decide)
      rcases this with h | h
      · have := Nat.le_of_mul_le_mul_right h (show 0 < s.szAtom by omega)
        omega
      · have := Nat.le_of_mul_le_mul_right h (show 0 < s.szAtom by omega)
        omega)
  refine ⟨k, ?_, fun e => by rw [e] at f1; simp at f1⟩
  have h7 : 2 ^ l ≤ 2 ^ k := by omega
  exact (Nat.pow_le_pow_iff_right (a := 2) (by decide)).mp h7

/-- The two outcomes of `mplite_malloc`, for an acceptable request. -/
theorem RInv.outcome {bufSize minAlloc : Nat} {s : St} {L : Ledger} (h : RInv bufSize minAlloc s L) {n : Int}
    (hn : Acceptable n) : ∃ fr l, Inv s fr (L.live.map (toOut s.szAtom)) ∧ fit (atomOf minAlloc) n.toNat = s.szAtom * 2 ^ l ∧
      n.toNat ≤ s.szAtom * 2 ^ l ∧ (l = 0 ∨ s.szAtom * 2 ^ (l - 1) < n.toNat) ∧
      (((∃ s' p, malloc s n = some (s', some p)) ∧
          ∃ a, s.szAtom * 2 ^ l ∣ a ∧ a + s.szAtom * 2 ^ l ≤ s.nBlock * s.szAtom ∧ Unheld L a (s.szAtom * 2 ^ l)) ∨
       ((∃ s', malloc s n = some (s', none)) ∧ ∀ k, l ≤ k → fr k = [])) := by
  obtain ⟨h1, h2⟩ := hn
  obtain ⟨k, rfl⟩ : ∃ k : Nat, n = k := ⟨n.toNat, by omega⟩
  rw [Int.toNat_natCast]
  obtain ⟨fr, hinv⟩ := h.inv
  have hsm := h.szSmall
  have ha := hinv.core.geo.atom
  obtain ⟨l, m1, m2, m3, m4⟩ := mallocUnsafe_spec hinv (by omega) (n := k) (by omega) (by omega)
  have hl30 : l ≤ 30 := by
    apply pow_lt_log
    have : 1 * 2 ^ l ≤ s.szAtom * 2 ^ l := Nat.mul_le_mul_right _ (by omega)
    omega
  refine ⟨fr, l, hinv, by rw [← h.atom]; exact fit_eq m1 m2 hl30, m1, m2, ?_⟩
  rcases m4 with ⟨s', fr', i, e1, e2, e3, e4⟩ | ⟨e1, e5⟩
  · left
    refine ⟨⟨_, _, by rw [malloc_eq]; exact e1⟩, i * s.szAtom, ?_, ?_, ?_⟩
    · obtain ⟨c, hc⟩ := (e3.core.til.align i l (Or.inr (by simp))).1
      exact ⟨c, by rw [hc, Nat.mul_comm, Nat.mul_assoc]⟩
    · have := (e3.core.til.align i l (Or.inr (by simp))).2
      have e2n : s'.nBlock = s.nBlock := e2.nBlock
      rw [e2n] at this
      have := Nat.mul_le_mul_right s.szAtom this
      rw [Nat.add_mul, Nat.mul_comm (2 ^ l)] at this
      exact this
    · intro b hb
      have g := h.good b hb
      rw [g.end, g.off]
      have e5 : i * s.szAtom + s.szAtom * 2 ^ l = (i + 2 ^ l) * s.szAtom := by
        rw [Nat.add_mul, Nat.mul_comm s.szAtom]
      rw [e5]
      refine Classical.byContradiction fun hc => ?_
      have hbm : toOut s.szAtom b ∈ L.live.map (toOut s.szAtom) := List.mem_map.mpr ⟨b, hb, rfl⟩
      have hc2 : i * s.szAtom < ((toOut s.szAtom b).1 + 2 ^ (toOut s.szAtom b).2) * s.szAtom ∧
        (toOut s.szAtom b).1 * s.szAtom < (i + 2 ^ l) * s.szAtom := by omega
      obtain ⟨q1, q2⟩ := e3.core.til.disj i l (toOut s.szAtom b).1 (toOut s.szAtom b).2 (Or.inr (by simp))
        (Or.inr (by rw [List.mem_cons]; exact Or.inr hbm)) (Nat.lt_of_mul_lt_mul_right hc2.1)
        (Nat.lt_of_mul_lt_mul_right hc2.2)
      have hnd := (List.nodup_cons.mp e3.core.til.nodO).1
      exact hnd (by rw [q1, q2]; exact hbm)
  · right
    exact ⟨⟨_, by rw [malloc_eq]; exact e1⟩, e5⟩

/-- `mplite_malloc(n)` fails only when it must: exactly when `n` is not acceptable or every window of the rounded
size, aligned to that size, meets a block that is held (or leaves the pool). -/
theorem mplite_malloc_null_iff {bufSize minAlloc : Nat} (hp : GoodParams bufSize minAlloc) {s : St} {L : Ledger}
    (h : Reach bufSize minAlloc s L) (n : Int) :
    (∃ s', malloc s n = some (s', none)) ↔
      (¬ Acceptable n ∨ ∀ a, fit (atomOf minAlloc) n.toNat ∣ a →
        a + fit (atomOf minAlloc) n.toNat ≤ atoms bufSize minAlloc * atomOf minAlloc →
        ¬ Unheld L a (fit (atomOf minAlloc) n.toNat)) := by
  have hi := h.inv hp
  by_cases hn : Acceptable n
  · obtain ⟨fr, l, hinv, h1, _, _, h2⟩ := hi.outcome hn
    rw [h1, ← hi.atom, ← hi.nB]
    rcases h2 with ⟨⟨s', p, h3⟩, a, h4, h5, h6⟩ | ⟨h3, h4⟩
    · constructor
      · rintro ⟨s'', h7⟩
        rw [h3] at h7; simp at h7
      · rintro (h7 | h7)
        · exact absurd hn h7
        · exact absurd h6 (h7 a h4 h5)
    · refine ⟨fun _ => Or.inr fun a h5 h6 h7 => ?_, fun _ => h3⟩
      obtain ⟨k, k1, k2⟩ := hi.window hinv h5 h6 h7
      exact k2 (h4 k k1)
  · refine ⟨fun _ => Or.inl hn, fun _ => ⟨s, ?_⟩⟩
    rw [malloc_eq]
    unfold mallocUnsafe
    unfold Acceptable at hn
    rw [if_pos (by unfold MAXALLOC; omega)]

/-- `mplite_calloc(n)` fails exactly when `mplite_malloc(n)` does. -/
theorem mplite_calloc_null_iff {bufSize minAlloc : Nat} (hp : GoodParams bufSize minAlloc) {s : St} {L : Ledger}
    (h : Reach bufSize minAlloc s L) (n : Int) :
    (∃ s', calloc s n = some (s', none)) ↔ ∃ s', malloc s n = some (s', none) := by
  obtain ⟨s1, r1, h1, _⟩ := mplite_never_faults hp h (op := .calloc n) trivial
  obtain ⟨s2, r2, h2, _⟩ := mplite_never_faults hp h (op := .malloc n) trivial
  simp only [exec] at h1 h2
  rw [h1, h2]
  unfold calloc at h1
  rw [h2] at h1
  cases r2 with
  | none => simp only [Option.some.injEq, Prod.mk.injEq] at h1; obtain ⟨rfl, rfl⟩ := h1; simp
  | some p =>
    simp only [Option.map_eq_some_iff] at h1
    obtain ⟨t, _, h1⟩ := h1
    simp only [Prod.mk.injEq] at h1
    obtain ⟨rfl, rfl⟩ := h1; simp

/-- What `mplite_realloc` of a held block returns: NULL for a size that is not a power of two; the block itself when the
size fits it; otherwise NULL exactly when `mplite_malloc` of that size would fail. -/
theorem mplite_realloc_result {bufSize minAlloc : Nat} (hp : GoodParams bufSize minAlloc) {s : St} {L : Ledger}
    (h : Reach bufSize minAlloc s L) {b : Blk} (hb : b ∈ L.live) (n : Int) :
    ∃ s' r, realloc s b.off n = some (s', r) ∧ (¬ PowTwo n → r = none ∧ s' = s) ∧
      (PowTwo n → n ≤ b.size → r = some b.off ∧ s' = s) ∧
      (PowTwo n → b.size < n → (r = none ↔ ∃ t, malloc s n = some (t, none))) := by
  obtain ⟨s1, r1, h1, _⟩ := mplite_never_faults hp h (op := .realloc b.off n) ⟨b, hb, rfl⟩
  obtain ⟨s2, r2, h2, _⟩ := mplite_never_faults hp h (op := .malloc n) trivial
  simp only [exec] at h1 h2
  refine ⟨s1, r1, h1, ?_, ?_, ?_⟩
  · intro hn
    have : isPow2 n = false := by
      cases e : isPow2 n with
      | false => rfl
      | true => exact absurd ((isPow2_iff n).mp e) hn
    unfold realloc at h1
    rw [if_pos this] at h1
    simp only [Option.some.injEq, Prod.mk.injEq] at h1
    exact ⟨h1.2.symm, h1.1.symm⟩
  · intro hn hle
    unfold realloc at h1
    rw [if_neg (by rw [(isPow2_iff n).mpr hn]; simp), mplite_size_exact hp h hb, Option.bind_some, if_pos hle] at h1
    simp only [Option.some.injEq, Prod.mk.injEq] at h1
    exact ⟨h1.2.symm, h1.1.symm⟩
  · intro hn hlt
    unfold realloc at h1
    rw [if_neg (by rw [(isPow2_iff n).mpr hn]; simp), mplite_size_exact hp h hb, Option.bind_some,
      if_neg (by omega)] at h1
    rw [h2]
    rw [malloc_eq] at h2
    unfold reallocMove at h1
    rw [h2] at h1
    cases r2 with
    | none => simp only [Option.some.injEq, Prod.mk.injEq] at h1; obtain ⟨rfl, rfl⟩ := h1; simp
    | some p =>
      simp only [Option.bind_eq_some_iff, Option.map_eq_some_iff] at h1
      obtain ⟨t, _, u, _, h1⟩ := h1
      simp only [Prod.mk.injEq] at h1
      obtain ⟨rfl, rfl⟩ := h1; simp

/-- `mplite_resize` of a held block: 0 for a power of two that fits the block, -1 otherwise; it changes nothing. -/
theorem mplite_resize_exact {bufSize minAlloc : Nat} (hp : GoodParams bufSize minAlloc) {s : St} {L : Ledger}
    (h : Reach bufSize minAlloc s L) {b : Blk} (hb : b ∈ L.live) (n : Int) :
    resize s b.off n = some (if PowTwo n ∧ n ≤ b.size then 0 else -1) := by
  unfold resize
  by_cases hn : PowTwo n
  · rw [if_neg (by rw [(isPow2_iff n).mpr hn]; simp), mplite_size_exact hp h hb]
    simp only [Option.map_some, hn, true_and]
  · have : isPow2 n = false := by
      cases e : isPow2 n with
      | false => rfl
      | true => exact absurd ((isPow2_iff n).mp e) hn
    rw [if_pos this, if_neg (fun h => hn h.1)]

/-- `mplite_maxmem` is exactly the largest request that succeeds. -/
theorem mplite_maxmem_exact {bufSize minAlloc : Nat} (hp : GoodParams bufSize minAlloc) {s : St} {L : Ledger}
    (h : Reach bufSize minAlloc s L) {n : Int} (hn : Acceptable n) :
    (∃ s' p, malloc s n = some (s', some p)) ↔ n ≤ maxmem s := by
  have hi := h.inv hp
  obtain ⟨fr, l, hinv, h1, h2, h3, h4⟩ := hi.outcome hn
  have ha := hinv.core.geo.atom
  obtain ⟨hn1, hn2⟩ := hn
  have hs := maxmemLoop_spec s 31
  rw [show maxmemLoop s 31 = maxmem s from rfl] at hs
  rcases h4 with ⟨h3', a, h5, h6, h7⟩ | ⟨⟨s', h3'⟩, h4⟩
  · refine ⟨fun _ => ?_, fun _ => h3'⟩
    obtain ⟨k, k1, k2⟩ := hi.window hinv h5 h6 h7
    have k3 : k ≤ 30 := by
      cases hf : fr k with
      | nil => exact absurd hf k2
      | cons x xs => exact hinv.core.til.log (i := x) (Or.inl (by rw [hf]; simp))
    have k4 : s.flist k ≠ -1 := fun e => k2 ((hinv.flist_empty k).mp e)
    rcases hs with ⟨_, q⟩ | ⟨m, m1, m2, m3, m4⟩
    · exact absurd (q k (by omega)) k4
    · have hkm : k ≤ m := Classical.byContradiction fun hc => k4 (m4 k (by omega) (by omega))
      have := Nat.pow_le_pow_right (n := 2) (by decide) (show l ≤ m by omega)
      have := Nat.mul_le_mul_right s.szAtom this
      rw [m3]
      rw [Nat.mul_comm] at h2
      omega
  · constructor
    · rintro ⟨s'', p, h5⟩
      rw [h3'] at h5; simp at h5
    · intro hle
      exfalso
      rcases hs with ⟨q, _⟩ | ⟨m, m1, m2, m3, m4⟩
      · omega
      · have hml : m < l := Classical.byContradiction fun hc =>
          m2 ((hinv.flist_empty m).mpr (h4 m (by omega)))
        have := Nat.pow_le_pow_right (n := 2) (by decide) (show m ≤ l - 1 by omega)
        have := Nat.mul_le_mul_right s.szAtom this
        rw [Nat.mul_comm s.szAtom] at h3
        omega

/-- When everything has been given back (in any order), the free blocks are those after `mplite_init`: same lists
up to order, same `mplite_freemem`, same `mplite_maxmem`, and the same requests succeed. -/
theorem mplite_all_freed {bufSize minAlloc : Nat} (hp : GoodParams bufSize minAlloc) {s s0 : St} {L : Ledger}
    (h : Reach bufSize minAlloc s L) (hl : L.live = []) {mem : Nat → Byte}
    (h0 : init mem bufSize minAlloc = some (some s0)) :
    (∀ l, ∃ xs ys, freeBlocks s l = some xs ∧ freeBlocks s0 l = some ys ∧ xs.Perm ys) ∧
    freemem s = freemem s0 ∧ maxmem s = maxmem s0 ∧
    (∀ n, (∃ s', malloc s n = some (s', none)) ↔ (∃ s', malloc s0 n = some (s', none))) := by
  have hr0 : Reach bufSize minAlloc s0 Ledger.empty := Reach.init h0
  have hi := h.inv hp
  have hi0 := hr0.inv hp
  obtain ⟨fr, hinv⟩ := hi.inv
  obtain ⟨fr0, hinv0⟩ := hi0.inv
  rw [hl] at hinv
  have hinv1 : Inv s fr [] := hinv
  have hinv01 : Inv s0 fr0 [] := hinv0
  have t := hinv1.core.til
  have t0 := hinv01.core.til
  have hn : s0.nBlock = s.nBlock := hi0.nB.trans hi.nB.symm
  have hz : s0.szAtom = s.szAtom := hi0.atom.trans hi.atom.symm
  rw [hn] at t0
  have hset : ∀ l i, i ∈ fr l ↔ i ∈ fr0 l := fun l i =>
    ⟨Tiling.unique t hinv1.coal t0 hinv01.coal i l, Tiling.unique t0 hinv01.coal t hinv1.coal i l⟩
  have hperm : ∀ l, (fr l).Perm (fr0 l) := fun l =>
    (List.perm_ext_iff_of_nodup (t.nodF l) (t0.nodF l)).mpr (hset l)
  refine ⟨fun l => ⟨fr l, fr0 l, (hinv1.lists l).2, (hinv01.lists l).2, hperm l⟩, ?_, ?_, ?_⟩
  · obtain ⟨f, f1, f2⟩ := mplite_freemem_exact hp h
    obtain ⟨g, g1, g2⟩ := mplite_freemem_exact hp hr0
    rw [hl] at f2
    rw [f1, g1]
    have : f = g := by
      simp only [heldBytes, Ledger.empty] at f2 g2
      simp at f2 g2; omega
    rw [this]
  · have he : ∀ l, s.flist l = -1 ↔ s0.flist l = -1 := by
      intro l
      rw [hinv1.flist_empty, hinv01.flist_empty]
      constructor
      · intro e; have := hperm l; rw [e] at this; exact this.symm.eq_nil
      · intro e; have := hperm l; rw [e] at this; exact this.eq_nil
    have hm : ∀ k, maxmemLoop s k = maxmemLoop s0 k := by
      intro k
      induction k with
      | zero => rfl
      | succ k ih =>
        unfold maxmemLoop
        rw [hz, ih]
        by_cases hk : s.flist k = -1
        · rw [if_neg (fun hc => hc hk), if_neg (fun hc => hc ((he k).mp hk))]
        · rw [if_pos hk, if_pos (fun hc => hk ((he k).mpr hc))]
    exact hm _
  · intro n
    rw [mplite_malloc_null_iff hp h, mplite_malloc_null_iff hp hr0]
    unfold Unheld
    rw [hl]
    simp [Ledger.empty]

/-! ### Concrete cases -/

/-- Results of a sequence of calls. -/
def results (s : St) : List Op → Option (List (Option Nat))
  | [] => some []
  | op :: ops => (exec s op).bind fun r => (results r.1 ops).map (r.2 :: ·)

/-- State after a sequence of calls. -/
def runOps (s : St) : List Op → Option St
  | [] => some s
  | op :: ops => (exec s op).bind fun r => runOps r.1 ops

/-- The state after `mplite_init` of a 400-byte buffer with `min_alloc` 10 (atoms of 16 bytes, 23 of them). -/
def demo : Option St := (init (fun _ => 0xAA) 400 10).bind id

example : GoodParams 400 10 := by unfold GoodParams; decide
example : atomOf 10 = 16 ∧ atoms 400 10 = 23 := by decide +kernel
example : demo.map (fun s => (s.szAtom, s.nBlock, maxmem s)) = some (16, 23, 256) := by decide +kernel
example : (demo.bind freemem) = some (23 * 16) := by decide +kernel
/-- Blocks of 16, 32, 128 bytes; a request that cannot be met; free and reuse. -/
example : (demo.bind fun s => results s [.malloc 10, .malloc 20, .malloc 100, .malloc 129, .free 352, .malloc 200,
    .realloc 320 64, .malloc 0, .calloc 5]) =
    some [some 352, some 320, some 0, none, none, none, some 256, none, some 352] := by decide +kernel
/-- Everything given back: the biggest request succeeds again. -/
example : (demo.bind fun s => results s [.malloc 10, .malloc 20, .malloc 100, .free 320, .free 0, .free 352,
    .malloc 256]) = some [some 352, some 320, some 0, none, none, none, some 0] := by decide +kernel
example : ((demo.bind fun s => runOps s [.malloc 10, .malloc 20, .free 352]).map fun s =>
    [s.currentOut, s.currentCount, s.maxOut, s.maxCount, s.maxRequest, s.nAlloc, s.totalAlloc, s.totalExcess]) =
    some [32, 1, 48, 2, 20, 2, 48, 18] := by decide +kernel
/-- `min_alloc` above 2^30 makes `mplite_init` compute `1 << 31` (undefined behaviour). -/
example : (init (fun _ => 0) 400 1073741825).isNone = true := by decide +kernel

end Verif.Mplite
