import Verif.MpliteMt.Swap
/-!
# Theorems: mplite with a lock, under threads
-/
namespace Verif.MpliteMt
open Verif.Mplite (St Blk Ledger fit atomOf atoms PowTwo Acceptable Reach GoodParams RInv heldBytes Unheld write)

/-- No step of any thread, in any interleaving, reads or writes outside the buffer, fails an ASSERT or overflows. -/
theorem mpliteMt_never_faults {bs ma : Nat} (hp : GoodParams bs ma) {x : Sys} {B : Books} (h : Run bs ma x B) (i : Nat) :
    move x i ≠ .fault := ((h.inv hp).move hp i).1

/-- At any time the pool is one that some sequential history of calls and stores makes; the blocks it has given out are
those the threads own and those of calls under way. -/
theorem mpliteMt_sequential {bs ma : Nat} (hp : GoodParams bs ma) {x : Sys} {B : Books} (h : Run bs ma x B) :
    ∃ L, Reach bs ma x.pool L ∧ (∀ hd ∈ B.held, hd.2 ∈ L.live) ∧
      ((∀ i, x.ph i = .idle) → L.live.Perm (B.held.map (·.2))) := by
  obtain ⟨L, act, h1, h2, h3⟩ := (h.inv hp).led
  refine ⟨L, h1, fun hd hm => h2.mem_iff.mpr (List.mem_append.mpr (Or.inl (List.mem_map.mpr ⟨hd, hm, rfl⟩))), ?_⟩
  intro hi
  have : act = [] := by
    cases act with
    | nil => rfl
    | cons a as =>
      have := (h3.2 a.1 a.2).mp (by simp)
      simp only at this
      rw [hi a.1] at this
      cases this
  rw [this] at h2
  simpa using h2

/-- Blocks of the threads: big enough, aligned, in the pool, of the size the rounding gives or more, and disjoint
from each other, whoever owns them. -/
theorem mpliteMt_blocks {bs ma : Nat} (hp : GoodParams bs ma) {x : Sys} {B : Books} (h : Run bs ma x B) :
    (∀ i b, (i, b) ∈ B.held → 0 < b.req ∧ b.req ≤ b.size ∧ b.size ∣ b.off ∧ (∃ k, b.size = atomOf ma * 2 ^ k) ∧
      b.off + b.size ≤ atoms bs ma * atomOf ma) ∧
    (B.held.map (·.2)).Pairwise (fun a b => a.off + a.size ≤ b.off ∨ b.off + b.size ≤ a.off) := by
  obtain ⟨L, act, h1, h2, _⟩ := (h.inv hp).led
  obtain ⟨b1, b2, _⟩ := Mplite.mplite_blocks hp h1
  constructor
  · intro i b hb
    obtain ⟨c1, c2, c3, c4, c5⟩ := b1 b (h2.mem_iff.mpr (List.mem_append.mpr (Or.inl (List.mem_map.mpr ⟨_, hb, rfl⟩))))
    exact ⟨c2, c1, c3, c4, c5⟩
  · have hs : ∀ {u v : Blk}, (u.off + u.size ≤ v.off ∨ v.off + v.size ≤ u.off) →
        (v.off + v.size ≤ u.off ∨ u.off + u.size ≤ v.off) := fun h => h.symm
    have := (h2.pairwise_iff hs).mp b2
    exact (List.pairwise_append.mp this).1

/-- What a thread stored in a block it owns (or `calloc` zeroed for it, or `realloc` copied) is there, whatever the
others did since. -/
theorem mpliteMt_contents {bs ma : Nat} (hp : GoodParams bs ma) {x : Sys} {B : Books} (h : Run bs ma x B) {i j : Nat}
    {b : Blk} {v : Byte} (hb : (i, b) ∈ B.held) (hj : b.data j = some v) : j < b.size ∧ x.pool.mem (b.off + j) = v := by
  obtain ⟨L, h1, h2⟩ := held_mem (h.inv hp)
  exact Mplite.mplite_contents hp h1 (h2 _ hb) hj

/-- A block that a call returns was in nobody's hands: it is disjoint from all blocks the threads own. -/
theorem mpliteMt_fresh {bs ma : Nat} (hp : GoodParams bs ma) {x : Sys} {B : Books} (h : Run bs ma x B) {i : Nat}
    {c : Call} {r : Ret} (hi : x.ph i = .returning c r) {b : Blk} (hg : gets (atomOf ma) c (B.lent i) r = some b) :
    ∀ hd ∈ B.held, hd.2.off + hd.2.size ≤ b.off ∨ b.off + b.size ≤ hd.2.off := by
  have h2 := (mpliteMt_blocks hp (Run.ret h hi)).2
  unfold Books.returns at h2
  simp only [hg, Option.toList_some, List.map_cons, List.map_nil, List.cons_append, List.nil_append,
    List.pairwise_cons] at h2
  intro hd hm
  exact (h2.1 hd.2 (List.mem_map.mpr ⟨hd, hm, rfl⟩)).symm

/-- What `realloc` returns: NULL for a size that is not a power of two, the block itself when the size fits it (as
read without the lock). -/
theorem mpliteMt_realloc {bs ma : Nat} (hp : GoodParams bs ma) {x : Sys} {B : Books} (h : Run bs ma x B) {i p : Nat}
    {n : Int} {r : Ret} (hi : x.ph i = .returning (.realloc p n) r) :
    ∃ b q, B.lent i = some b ∧ b.off = p ∧ r = .ptr q ∧ (¬ PowTwo n → q = none) ∧
      (PowTwo n → n ≤ b.size → q = some p) ∧
      (q ≠ none → n ≤ ((gets (atomOf ma) (.realloc p n) (B.lent i) r).map fun b => (b.size : Int)).getD 0) := by
  have hf := (h.inv hp).fine i
  rw [hi] at hf
  obtain ⟨b, h1, h2, h3, h4, q, rfl⟩ := hf
  refine ⟨b, q, h1, h2, rfl, fun hn => by injection h3 hn, fun ha hb => by injection h4 ha hb, ?_⟩
  intro hq
  cases q with
  | none => exact absurd rfl hq
  | some q =>
    rw [h1]
    simp only [gets, Option.map_some, Option.getD_some]
    by_cases hle : n ≤ (b.size : Int)
    · rw [if_pos hle]; exact hle
    · rw [if_neg hle]
      have h5 := (mpliteMt_blocks hp (Run.ret h hi)).1 i ⟨q, n.toNat, fit (atomOf ma) n.toNat, b.copy⟩ (by
        unfold Books.returns
        rw [h1]
        simp [gets, hle])
      have h6 := h5.2.1
      simp only at h6 ⊢
      omega

/-- What `resize` returns: 0 for a power of two that fits the block, -1 otherwise. -/
theorem mpliteMt_resize {bs ma : Nat} (hp : GoodParams bs ma) {x : Sys} {B : Books} (h : Run bs ma x B) {i p : Nat}
    {n : Int} {r : Ret} (hi : x.ph i = .returning (.resize p n) r) :
    ∃ b, B.lent i = some b ∧ b.off = p ∧ r = .num (if PowTwo n ∧ n ≤ b.size then 0 else -1) := by
  have hf := (h.inv hp).fine i
  rw [hi] at hf
  exact hf

/-- The size that `realloc` read without the lock is the size of its block when it has the lock. -/
theorem mpliteMt_size_not_stale {bs ma : Nat} (hp : GoodParams bs ma) {x : Sys} {B : Books} (h : Run bs ma x B)
    {i p old : Nat} {n : Int} (hi : x.ph i = .inside (.realloc p n) old) : Mplite.size x.pool p = some old := by
  have hI := h.inv hp
  have hf := hI.fine i
  rw [hi] at hf
  obtain ⟨b, h1, h2, h3, _⟩ := hf
  obtain ⟨L, l1, l2⟩ := carried hI (i := i) (b := b) (by rw [hi, h1]; rfl)
  have := Mplite.mplite_size_exact hp l1 l2
  rw [h2, ← h3] at this
  exact this

/-- A request under the lock fails only when it must: when every window of the rounded size, aligned to that size,
meets a block that is out (or leaves the pool). -/
theorem mpliteMt_null_when_full {bs ma : Nat} (hp : GoodParams bs ma) {x : Sys} {B : Books} (h : Run bs ma x B)
    {i old : Nat} {c : Call} {n : Int} (hi : x.ph i = .inside c old)
    (hc : c = .malloc n ∨ c = .calloc n ∨ ∃ p, c = .realloc p n) :
    ∃ L s r, Reach bs ma x.pool L ∧ (∀ hd ∈ B.held, hd.2 ∈ L.live) ∧ body c old x.pool = some (s, .ptr r) ∧
      (r = none ↔ (¬ Acceptable n ∨ ∀ a, fit (atomOf ma) n.toNat ∣ a →
        a + fit (atomOf ma) n.toNat ≤ atoms bs ma * atomOf ma → ¬ Unheld L a (fit (atomOf ma) n.toNat))) := by
  have hI := h.inv hp
  obtain ⟨L, l1, l2⟩ := held_mem hI
  have hn := Mplite.mplite_malloc_null_iff hp l1 n
  obtain ⟨s', r', m1, _⟩ := malloc_step hp l1 n
  rw [Mplite.malloc_eq, m1] at hn
  have hr : (∃ s'', some (s', r') = some (s'', (none : Option Nat))) ↔ r' = none := by
    constructor
    · rintro ⟨_, e⟩; injection e with e; injection e
    · rintro rfl; exact ⟨_, rfl⟩
  rw [hr] at hn
  rcases hc with rfl | rfl | ⟨p, rfl⟩
  · refine ⟨L, s', r', l1, l2, ?_, hn⟩
    unfold body; simp only; rw [m1]; rfl
  · refine ⟨L, s', r', l1, l2, ?_, hn⟩
    unfold body; simp only; rw [m1]; rfl
  · obtain ⟨s, r, b1, _⟩ := hI.moved hp hi
    refine ⟨L, s, r, l1, l2, b1, ?_⟩
    rw [← hn]
    unfold body at b1
    simp only at b1
    unfold Mplite.reallocMove at b1
    rw [m1] at b1
    cases r' with
    | none =>
      simp only [Option.map_some, Option.some.injEq, Prod.mk.injEq, Ret.ptr.injEq] at b1
      simp [← b1.2]
    | some q =>
      simp only [Option.map_eq_some_iff, Option.bind_eq_some_iff, Prod.mk.injEq, Ret.ptr.injEq] at b1
      obtain ⟨t, ⟨_, _, _, _, rfl⟩, _, e⟩ := b1
      simp at e
      simp [← e]

/-- `freemem` under the lock: what it returns and the bytes that are out add up to the pool. -/
theorem mpliteMt_freemem {bs ma : Nat} (hp : GoodParams bs ma) {x : Sys} {B : Books} (h : Run bs ma x B) :
    ∃ L f, Reach bs ma x.pool L ∧ (∀ hd ∈ B.held, hd.2 ∈ L.live) ∧
      ((∀ i, x.ph i ≠ .idle → x.ph i = .inside .freemem 0) → L.live.Perm (B.held.map (·.2))) ∧
      body .freemem 0 x.pool = some (x.pool, .num (f : Nat)) ∧ f + heldBytes L.live = atoms bs ma * atomOf ma := by
  have hI := h.inv hp
  obtain ⟨L, act, l1, l2, l3⟩ := hI.led
  obtain ⟨f, h1, h2⟩ := Mplite.mplite_freemem_exact hp l1
  refine ⟨L, f, l1, fun hd hm => l2.mem_iff.mpr (List.mem_append.mpr (Or.inl (List.mem_map.mpr ⟨hd, hm, rfl⟩))), ?_,
    by unfold body; simp only; rw [h1]; rfl, h2⟩
  intro hi
  have : act = [] := by
    cases act with
    | nil => rfl
    | cons a as =>
      have h3 := (l3.2 a.1 a.2).mp (by simp)
      simp only at h3
      by_cases hid : x.ph a.1 = .idle
      · rw [hid] at h3; cases h3
      · have h4 := hI.fine a.1
        rw [hi a.1 hid] at h3 h4
        rw [show B.lent a.1 = none from h4] at h3
        cases h3
  rw [this] at l2
  simpa using l2

/-- `maxmem` under the lock: exactly the requests up to it would succeed at that moment. -/
theorem mpliteMt_maxmem {bs ma : Nat} (hp : GoodParams bs ma) {x : Sys} {B : Books} (h : Run bs ma x B) {n : Int}
    (hn : Acceptable n) : ∃ m : Nat, body .maxmem 0 x.pool = some (x.pool, .num m) ∧
      ((∃ s p, body (.malloc n) 0 x.pool = some (s, .ptr (some p))) ↔ n ≤ m) := by
  obtain ⟨L, l1, _⟩ := held_mem (h.inv hp)
  refine ⟨_, rfl, ?_⟩
  rw [← Mplite.mplite_maxmem_exact hp l1 hn]
  unfold body
  simp only
  rw [Mplite.malloc_eq]
  constructor
  · rintro ⟨s, p, e⟩
    rw [Option.map_eq_some_iff] at e
    obtain ⟨t, t1, t2⟩ := e
    simp only [Prod.mk.injEq, Ret.ptr.injEq] at t2
    exact ⟨t.1, p, by rw [t1, ← t2.2]⟩
  · rintro ⟨s, p, e⟩
    rw [e]; exact ⟨s, p, rfl⟩

/-- One thread at a time has the lock. -/
theorem mpliteMt_exclusive {bs ma : Nat} (hp : GoodParams bs ma) {x : Sys} {B : Books} (h : Run bs ma x B) {i k old old' : Nat}
    {c c' : Call} (hi : x.ph i = .inside c old) (hk : x.ph k = .inside c' old') : i = k := by
  have h1 := ((h.inv hp).lock i).mpr (by rw [hi]; rfl)
  have h2 := ((h.inv hp).lock k).mpr (by rw [hk]; rfl)
  rw [h1] at h2
  injection h2

/-- Own steps left in a call (waiting for the lock aside). -/
def stepsLeft : Phase → Nat
  | .idle => 0
  | .returning _ _ => 0
  | .zeroing _ n j => n - j + 1
  | .leaving (.calloc n) _ => n.toNat + 2
  | .leaving _ _ => 1
  | .inside (.calloc n) _ => n.toNat + 3
  | .inside _ _ => 2
  | .want (.calloc n) _ => n.toNat + 4
  | .want _ _ => 3
  | .sizing _ => 4

/-- Every call comes to its return after at most `stepsLeft` own steps. -/
theorem mpliteMt_steps_bounded {bs ma : Nat} (hp : GoodParams bs ma) {x : Sys} {B : Books} (h : Run bs ma x B) {i : Nat}
    {x' : Sys} (hm : move x i = .ok x') : stepsLeft (x'.ph i) < stepsLeft (x.ph i) ∧ ∀ k, k ≠ i → x'.ph k = x.ph k := by
  have hf := (h.inv hp).fine i
  unfold move at hm
  cases hi : x.ph i with
  | idle => rw [hi] at hm; cases hm
  | returning c r => rw [hi] at hm; cases hm
  | sizing c =>
    rw [hi] at hm hf
    simp only at hm
    cases hs : Mplite.size x.pool (sizeArg c) with
    | none => rw [hs] at hm; cases hm
    | some old =>
      rw [hs] at hm
      injection hm with hm
      subst hm
      refine ⟨?_, fun k hk => goto_other x _ hk⟩
      rw [goto_self]
      cases c with
      | realloc p n => simp only [sized]; split <;> simp [stepsLeft]
      | resize p n => simp [sized, stepsLeft]
      | _ => simp [sized, stepsLeft]
  | want c old =>
    rw [hi] at hm
    simp only at hm
    split at hm
    · injection hm with hm
      subst hm
      refine ⟨?_, fun k hk => goto_other x _ hk⟩
      show stepsLeft ((x.goto i _).ph i) < _
      rw [goto_self]
      cases c <;> simp [stepsLeft]
    · cases hm
  | inside c old =>
    rw [hi] at hm
    simp only at hm
    cases hb : body c old x.pool with
    | none => rw [hb] at hm; cases hm
    | some t =>
      rw [hb] at hm
      injection hm with hm
      subst hm
      refine ⟨?_, fun k hk => goto_other x _ hk⟩
      show stepsLeft ((x.goto i _).ph i) < _
      rw [goto_self]
      cases c <;> simp [stepsLeft]
  | leaving c r =>
    rw [hi] at hm
    injection hm with hm
    subst hm
    refine ⟨?_, fun k hk => goto_other x _ hk⟩
    show stepsLeft ((x.goto i _).ph i) < _
    rw [goto_self]
    unfold left
    split
    · simp [stepsLeft]
    · cases c <;> simp [stepsLeft]
  | zeroing p n j =>
    rw [hi] at hm
    simp only at hm
    split at hm
    · split at hm
      · injection hm with hm
        subst hm
        refine ⟨?_, fun k hk => goto_other x _ hk⟩
        show stepsLeft ((x.goto i _).ph i) < _
        rw [goto_self]
        simp only [stepsLeft]; omega
      · cases hm
    · injection hm with hm
      subst hm
      refine ⟨?_, fun k hk => goto_other x _ hk⟩
      show stepsLeft ((x.goto i _).ph i) < _
      rw [goto_self]
      simp only [stepsLeft]; omega

/-- No deadlock: when a thread in a call has to wait, the thread that has the lock can go on. -/
theorem mpliteMt_no_deadlock {bs ma : Nat} (hp : GoodParams bs ma) {x : Sys} {B : Books} (h : Run bs ma x B) {i : Nat}
    (hb : x.ph i ≠ .idle) (hr : ∀ c r, x.ph i ≠ .returning c r) :
    (∃ x', move x i = .ok x') ∨ ∃ k x', x.holder = some k ∧ move x k = .ok x' := by
  have hI := h.inv hp
  have key : ∀ k, move x k = .wait → x.ph k = .idle ∨ (∃ c r, x.ph k = .returning c r) ∨
      (∃ c old, x.ph k = .want c old ∧ x.holder ≠ none) := by
    intro k hw
    unfold move at hw
    cases hk : x.ph k with
    | idle => exact Or.inl rfl
    | returning c r => exact Or.inr (Or.inl ⟨c, r, rfl⟩)
    | want c old =>
      rw [hk] at hw
      simp only at hw
      split at hw
      · cases hw
      · exact Or.inr (Or.inr ⟨c, old, rfl, by assumption⟩)
    | sizing c => rw [hk] at hw; simp only at hw; split at hw <;> cases hw
    | inside c old => rw [hk] at hw; simp only at hw; split at hw <;> cases hw
    | leaving c r => rw [hk] at hw; cases hw
    | zeroing p n j => rw [hk] at hw; simp only at hw; split at hw <;> (try split at hw) <;> cases hw
  cases hm : move x i with
  | ok x' => exact Or.inl ⟨x', rfl⟩
  | fault => exact absurd hm (mpliteMt_never_faults hp h i)
  | wait =>
    right
    rcases key i hm with h1 | ⟨c, r, h1⟩ | ⟨c, old, h1, h2⟩
    · exact absurd h1 hb
    · exact absurd h1 (hr c r)
    · cases hh : x.holder with
      | none => exact absurd hh h2
      | some k =>
        have hl := (hI.lock k).mp hh
        cases hmk : move x k with
        | ok x' => exact ⟨k, x', rfl, hmk⟩
        | fault => exact absurd hmk (mpliteMt_never_faults hp h k)
        | wait =>
          rcases key k hmk with h1 | ⟨c, r, h1⟩ | ⟨c, old, h1, _⟩ <;> (rw [h1] at hl; cases hl)

/-! ### Steps without the lock and the locked section of another thread -/

/-- A store in a block and the locked section of another call can be swapped: the section does the same, whether the store
came before or after it. -/
theorem mpliteMt_store_swaps {bs ma : Nat} (hp : GoodParams bs ma) {x : Sys} {B : Books} (h : Run bs ma x B) {i k j old : Nat}
    {c : Call} {b : Blk} (v : Byte) (hi : x.ph i = .inside c old) (hb : (k, b) ∈ B.held) (hj : j < b.size) :
    ∃ y, move x i = .ok y ∧
      move { x with pool := write x.pool (b.off + j) v } i = .ok { y with pool := write y.pool (b.off + j) v } := by
  have hw := body_w hp (h.inv hp) hi (b := b) (a := b.off + j) v (by omega) (by omega) (Or.inl ⟨k, hb⟩)
  have hnf := mpliteMt_never_faults hp h i
  unfold move at hnf ⊢
  rw [hi] at hnf ⊢
  simp only at hnf ⊢
  rw [hw]
  cases he : body c old x.pool with
  | none => rw [he] at hnf; exact absurd rfl hnf
  | some t => exact ⟨_, rfl, rfl⟩

theorem goto_swap (x : Sys) {i k : Nat} (hik : i ≠ k) (p q : Phase) : (x.goto i p).goto k q = (x.goto k q).goto i p := by
  unfold Sys.goto
  simp only [Sys.mk.injEq, true_and]
  funext m
  by_cases h1 : m = k
  · subst h1; simp [Ne.symm hik]
  · simp [h1]

/-- The locked section of a thread and any step another thread can make meanwhile (its `mplite_size`, a byte of its
`memset`) can be swapped: both orders lead to the same state. -/
theorem mpliteMt_section_swaps {bs ma : Nat} (hp : GoodParams bs ma) {x : Sys} {B : Books} (h : Run bs ma x B) {i k old : Nat}
    {c : Call} (hik : i ≠ k) (hi : x.ph i = .inside c old) {y z : Sys} (hy : move x i = .ok y) (hz : move x k = .ok z) :
    ∃ w, move y k = .ok w ∧ move z i = .ok w := by
  have hI := h.inv hp
  have hhold : x.holder = some i := (hI.lock i).mpr (by rw [hi]; rfl)
  have hnl : locked (x.ph k) = false := by
    cases hl : locked (x.ph k) with
    | false => rfl
    | true =>
      have := (hI.lock k).mpr hl
      rw [hhold] at this
      injection this with this
      exact absurd this hik
  -- the section
  have hyr := Run.step h hy
  have hyk : y.ph k = x.ph k := (mpliteMt_steps_bounded hp h hy).2 k (Ne.symm hik)
  have hzi : z.ph i = x.ph i := (mpliteMt_steps_bounded hp h hz).2 i hik
  unfold move at hy
  rw [hi] at hy
  simp only at hy
  cases hb : body c old x.pool with
  | none => rw [hb] at hy; cases hy
  | some t =>
    rw [hb] at hy
    injection hy with hy
    cases hk : x.ph k with
    | idle => unfold move at hz; rw [hk] at hz; cases hz
    | returning c r => unfold move at hz; rw [hk] at hz; cases hz
    | inside c' o => rw [hk] at hnl; cases hnl
    | leaving c' r => rw [hk] at hnl; cases hnl
    | want c' o =>
      unfold move at hz
      rw [hk] at hz
      simp only at hz
      rw [if_neg (by rw [hhold]; simp)] at hz
      cases hz
    | sizing c' =>
      -- the size is the same before and after the section
      have hsize : ∀ (u : Sys), Inv bs ma u B → u.ph k = .sizing c' → ∃ b, B.lent k = some b ∧
          Mplite.size u.pool (sizeArg c') = some b.size := by
        intro u hu huk
        have hf := hu.fine k
        rw [huk] at hf
        have hbb : ∃ b, B.lent k = some b ∧ b.off = sizeArg c' := by
          cases c' with
          | realloc p n => obtain ⟨b, h1, h2, _⟩ := hf; exact ⟨b, h1, h2⟩
          | resize p n => obtain ⟨b, h1, h2, _⟩ := hf; exact ⟨b, h1, h2⟩
          | _ => exact hf.elim
        obtain ⟨b, h1, h2⟩ := hbb
        obtain ⟨L, l1, l2⟩ := carried hu (i := k) (b := b) (by rw [huk, h1]; rfl)
        exact ⟨b, h1, by rw [← h2]; exact Mplite.mplite_size_exact hp l1 l2⟩
      obtain ⟨b, b1, b2⟩ := hsize x hI hk
      obtain ⟨b', b3, b4⟩ := hsize y (hyr.inv hp) (by rw [hyk, hk])
      rw [b1] at b3
      injection b3 with b3
      subst b3
      unfold move at hz
      rw [hk] at hz
      simp only at hz
      rw [b2] at hz
      injection hz with hz
      refine ⟨y.goto k (sized c' b.size), ?_, ?_⟩
      · unfold move
        rw [hyk, hk]
        simp only
        rw [b4]
      · unfold move
        rw [hzi, hi]
        simp only
        rw [show z.pool = x.pool by rw [← hz]; rfl, hb]
        simp only
        rw [← hy, ← hz]
        exact congrArg Out.ok (by
          have := goto_swap x hik (.leaving c t.2) (sized c' b.size)
          unfold Sys.goto at this ⊢
          simp only [Sys.mk.injEq, true_and] at this ⊢
          exact this.symm)
    | zeroing p n j =>
      unfold move at hz
      rw [hk] at hz
      simp only at hz
      by_cases hjn : j < n
      · rw [if_pos hjn] at hz
        by_cases hin : p + j < x.pool.nBlock * x.pool.szAtom
        · rw [if_pos hin] at hz
          injection hz with hz
          have hcar : carry (atomOf ma) (x.ph k) (B.lent k) = some ⟨p, n, fit (atomOf ma) n, fun m => if m < j then some 0 else none⟩ := by
            rw [hk]; rfl
          obtain ⟨L, l1, l2⟩ := carried hI hcar
          have hreq := ((Mplite.mplite_blocks hp l1).1 _ l2).1
          simp only at hreq
          have hw := body_w hp hI hi (b := ⟨p, n, fit (atomOf ma) n, fun m => if m < j then some 0 else none⟩)
            (a := p + j) 0 (by simp only; omega) (by simp only; omega) (Or.inr ⟨k, Ne.symm hik, hcar⟩)
          have hnf := mpliteMt_never_faults hp hyr k
          have hyp : y.pool = t.1 := by rw [← hy]
          refine ⟨{ y.goto k (.zeroing p n (j + 1)) with pool := write y.pool (p + j) 0 }, ?_, ?_⟩
          · unfold move at hnf ⊢
            rw [hyk, hk] at hnf ⊢
            simp only at hnf ⊢
            rw [if_pos hjn] at hnf ⊢
            by_cases hin' : p + j < y.pool.nBlock * y.pool.szAtom
            · rw [if_pos hin']
            · rw [if_neg hin'] at hnf; exact absurd rfl hnf
          · unfold move
            rw [hzi, hi]
            simp only
            rw [show z.pool = write x.pool (p + j) 0 by rw [← hz], hw, hb]
            simp only [Option.map_some]
            rw [← hy, ← hz]
            exact congrArg Out.ok (by
              have := goto_swap x hik (.leaving c t.2) (.zeroing p n (j + 1))
              unfold Sys.goto at this ⊢
              simp only [Sys.mk.injEq, true_and] at this ⊢
              exact this.symm)
        · rw [if_neg hin] at hz; cases hz
      · rw [if_neg hjn] at hz
        injection hz with hz
        refine ⟨y.goto k (.returning (.calloc n) (.ptr (some p))), ?_, ?_⟩
        · unfold move
          rw [hyk, hk]
          simp only
          rw [if_neg hjn]
        · unfold move
          rw [hzi, hi]
          simp only
          rw [show z.pool = x.pool by rw [← hz]; rfl, hb]
          simp only
          rw [← hy, ← hz]
          exact congrArg Out.ok (by
            have := goto_swap x hik (.leaving c t.2) (.returning (.calloc n) (.ptr (some p)))
            unfold Sys.goto at this ⊢
            simp only [Sys.mk.injEq, true_and] at this ⊢
            exact this.symm)

end Verif.MpliteMt
