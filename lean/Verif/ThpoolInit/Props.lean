import Verif.ThpoolInit.Model
/-! # Creating a thread pool (C87) -/
namespace Verif.ThpoolInit

/-- how many thread records have been dealt with -/
def pos (n : Nat) : Main → Nat
  | .alloc i => i
  | .start i => i
  | .wait => n
  | .ret true => n
  | _ => 0

/-- the blocks that are live -/
def Want (e : Env) (n : Nat) (m : Main) : Blk → Prop
  | .pool => m ≠ .pool ∧ m ≠ .ret false
  | .bsem => m ≠ .pool ∧ m ≠ .queue ∧ m ≠ .ret false
  | .table => m ≠ .pool ∧ m ≠ .queue ∧ m ≠ .table ∧ m ≠ .ret false
  | .thread i => (i < pos n m ∧ e.mem (.thread i) = true) ∨ m = .start i

structure Inv (e : Env) (n : Nat) (s : St) : Prop where
  live : ∀ b, s.live b = true ↔ Want e n s.main b
  made : ∀ i, s.wrk i ≠ .none ↔ i < pos n s.main ∧ e.mem (.thread i) = true ∧ e.create i = true
  alive : s.alive = (List.range n).countP (fun i => s.wrk i = .alive)
  ub : s.ub = true ↔ ∃ i, i < pos n s.main ∧ e.mem (.thread i) = true ∧ e.create i = false
  lt : ∀ i, s.main = .alloc i ∨ s.main = .start i → i < n
  start : ∀ i, s.main = .start i → e.mem (.thread i) = true
  base : s.main ≠ .pool → s.main ≠ .ret false → e.mem .pool = true
  base2 : s.main ≠ .pool → s.main ≠ .queue → s.main ≠ .ret false → e.mem .bsem = true
  base3 : s.main ≠ .pool → s.main ≠ .queue → s.main ≠ .table → s.main ≠ .ret false → e.mem .table = true
  null : s.main = .ret false → e.mem .pool = false ∨ e.mem .bsem = false ∨ e.mem .table = false
  full : s.main = .ret true → s.alive = n

theorem Inv.init (e : Env) (n : Nat) : Inv e n St.init where
  live b := by cases b <;> simp [St.init, Want, pos]
  made i := by simp [St.init, pos]
  alive := by simp [St.init]
  ub := by simp [St.init, pos]
  lt i h := by simp [St.init] at h
  start i h := by simp [St.init] at h
  base h := by simp [St.init] at h
  base2 h := by simp [St.init] at h
  base3 h := by simp [St.init] at h
  null h := by simp [St.init] at h
  full h := by simp [St.init] at h

theorem count_eq_all {n : Nat} {p : Nat → Bool} (h : (List.range n).countP p = n) : ∀ i, i < n → p i = true := by
  intro i hi
  have : (List.range n).countP p = (List.range n).length := by rw [h, List.length_range]
  exact List.countP_eq_length.1 this i (List.mem_range.2 hi)

theorem next_pos (n i : Nat) (h : i ≤ n) : pos n (next n i) = i := by
  unfold next; split
  · rfl
  · simp only [pos]; omega

theorem next_cases (n i : Nat) : (next n i = .alloc i ∧ i < n) ∨ next n i = .wait := by
  unfold next; split
  · next h => exact .inl ⟨rfl, h⟩
  · exact .inr rfl

theorem countP_set {f : Nat → Wrk} {i n : Nat} (hi : i < n) (h : f i = .boot) :
    (List.range n).countP (fun j => set f i .alive j = .alive) =
      (List.range n).countP (fun j => f j = .alive) + 1 := by
  induction n with
  | zero => omega
  | succ n ih =>
    rw [List.range_succ, List.countP_append, List.countP_append]
    by_cases e : i = n
    · subst e
      have h1 : (List.range i).countP (fun j => decide (set f i .alive j = .alive)) =
          (List.range i).countP (fun j => decide (f j = .alive)) := by
        apply List.countP_congr
        intro j hj
        have : j ≠ i := by have := List.mem_range.1 hj; omega
        simp [set, this]
      rw [h1]
      simp [set, h]
    · have hn : n ≠ i := fun h => e h.symm
      rw [ih (by omega)]
      simp only [List.countP_cons, List.countP_nil, set, if_neg hn]
      omega

theorem Inv.wrkStep {e : Env} {n : Nat} {s : St} (v : Inv e n s) (i : Nat) : Inv e n (wrkStep s i) := by
  unfold ThpoolInit.wrkStep
  split
  · next h =>
    have hm := (v.made i).1 (by rw [h]; simp)
    have hi : i < n := by
      have := hm.1
      cases hs : s.main with
      | alloc j => have := v.lt j (.inl hs); rw [hs] at hm; simp only [pos] at hm; omega
      | start j => have := v.lt j (.inr hs); rw [hs] at hm; simp only [pos] at hm; omega
      | wait => rw [hs] at this; exact this
      | ret b => cases b <;> rw [hs] at this <;> simp [pos] at this; exact this
      | _ => rw [hs] at this; simp [pos] at this
    refine { v with made := ?_, alive := ?_, full := ?_ }
    · intro j
      show set s.wrk i .alive j ≠ .none ↔ _
      unfold set
      split
      · next hj => subst hj; simp [hm]
      · exact v.made j
    · show s.alive + 1 = _
      rw [v.alive, countP_set hi h]
    · intro hr
      have := v.full hr
      rw [v.alive] at this
      have := count_eq_all this i hi
      simp [h] at this
  · exact v

/-- the end of a round of the creation loop -/
theorem finish {e : Env} {n k : Nat} {m x : Main} {live : Blk → Bool} {wrk : Nat → Wrk} {alive : Nat} {ub : Bool}
    (hp : pos n x = k) (hx : (x = .alloc k ∧ k < n) ∨ x = .wait)
    (hl : ∀ b, live b = true ↔ match b with
      | .thread i => i < k ∧ e.mem (.thread i) = true
      | _ => True)
    (hm : ∀ i, wrk i ≠ .none ↔ i < k ∧ e.mem (.thread i) = true ∧ e.create i = true)
    (ha : alive = (List.range n).countP (fun i => wrk i = .alive))
    (hu : ub = true ↔ ∃ i, i < k ∧ e.mem (.thread i) = true ∧ e.create i = false)
    (h1 : e.mem .pool = true) (h2 : e.mem .bsem = true) (h3 : e.mem .table = true) :
    Inv e n ⟨live, x, wrk, alive, ub⟩ := by
  have := m
  constructor
  · intro b
    show live b = true ↔ _
    rw [hl]
    rcases hx with ⟨hx, _⟩ | hx <;> subst hx <;> cases b <;> simp [Want, hp]
  · intro i
    show wrk i ≠ .none ↔ _
    rw [hm, hp]
  · exact ha
  · show ub = true ↔ _
    rw [hu, hp]
  · rcases hx with ⟨hx, hk⟩ | hx <;> subst hx
    · simp [hk]
    · simp
  · rcases hx with ⟨hx, hk⟩ | hx <;> subst hx <;> simp
  · exact fun _ _ => h1
  · exact fun _ _ _ => h2
  · exact fun _ _ _ _ => h3
  · rcases hx with ⟨hx, hk⟩ | hx <;> subst hx <;> simp
  · rcases hx with ⟨hx, hk⟩ | hx <;> subst hx <;> simp

theorem Inv.mainStep {e : Env} {n : Nat} {s : St} (v : Inv e n s) : Inv e n (mainStep e n s) := by
  obtain ⟨vl, vm, va, vu, vlt, vst, vb, vb2, vb3, vn, vf⟩ := v
  obtain ⟨live, main, wrk, alive, ub⟩ := s
  unfold ThpoolInit.mainStep
  simp only at *
  cases main with
  | pool =>
    simp only
    split
    · next h =>
      constructor <;> simp_all [St.take, set, pos]
      intro b; cases b <;> simp [Want, pos]
    · next h =>
      constructor <;> simp_all [pos]
      intro b; cases b <;> simp [Want, pos]
  | queue =>
    have lp : live .pool = true := by rw [vl]; simp [Want]
    simp only
    split
    · next h =>
      constructor <;> simp_all [St.take, set, pos]
      intro b; cases b <;> simp [Want, pos]
    · next h =>
      constructor <;> simp_all [St.free, set, pos]
      intro b; cases b <;> simp [Want, pos]
  | table =>
    have lp : live .pool = true := by rw [vl]; simp [Want]
    have lb : live .bsem = true := by rw [vl]; simp [Want]
    simp only
    split
    · next h =>
      have hp := next_pos n 0 (Nat.zero_le n)
      rcases next_cases n 0 with ⟨hc, h0⟩ | hc <;> rw [hc] at hp ⊢
      · constructor <;> simp_all [St.take, set, pos]
        intro b; cases b <;> simp [Want, pos]
      · constructor <;> simp_all [St.take, set, pos]
        intro b; cases b <;> simp [Want, pos]
    · next h =>
      constructor <;> simp_all [St.free, set, pos]
      intro b; cases b <;> simp [Want, pos]
  | alloc i =>
    have hi : i < n := vlt i (.inl rfl)
    simp only
    split
    · next h =>
      have vl' := vl
      constructor <;> simp_all [St.take, set, pos]
      intro b
      cases b <;> simp [Want, pos]
      next j => grind
    · next h =>
      have hp := next_pos n (i + 1) hi
      have key : ∀ j, (j < i ∧ e.mem (.thread j) = true ↔ j < i + 1 ∧ e.mem (.thread j) = true) := by grind
      refine finish (m := .alloc i) hp (next_cases n (i + 1)) ?_ ?_ va ?_ (vb (by simp) (by simp)) (vb2 (by simp) (by simp) (by simp))
        (vb3 (by simp) (by simp) (by simp) (by simp))
      · intro b
        rw [vl]
        cases b <;> simp [Want, pos, key]
      · intro j
        rw [vm]
        simp only [pos]
        grind
      · rw [vu]
        simp only [pos]
        grind
  | start i =>
    have hi : i < n := vlt i (.inr rfl)
    have hm : e.mem (.thread i) = true := vst i rfl
    have hp := next_pos n (i + 1) hi
    simp only
    split
    · next h =>
      refine finish (m := .start i) hp (next_cases n (i + 1)) ?_ ?_ ?_ ?_ (vb (by simp) (by simp)) (vb2 (by simp) (by simp) (by simp))
        (vb3 (by simp) (by simp) (by simp) (by simp))
      · intro b
        rw [vl]
        cases b <;> simp [Want, pos]
        grind
      · intro j
        simp only [set]
        have := vm j
        simp only [pos] at this
        grind
      · rw [va]
        apply List.countP_congr
        intro j hj
        have := vm j
        simp only [pos] at this
        simp only [set, decide_eq_true_eq]
        split
        · next hj => subst hj; simp; intro hh; rw [hh] at this; simp at this
        · simp
      · rw [vu]
        simp only [pos]
        grind
    · next h =>
      refine finish (m := .start i) hp (next_cases n (i + 1)) ?_ ?_ va ?_ (vb (by simp) (by simp)) (vb2 (by simp) (by simp) (by simp))
        (vb3 (by simp) (by simp) (by simp) (by simp))
      · intro b
        rw [vl]
        cases b <;> simp [Want, pos]
        grind
      · intro j
        rw [vm]
        simp only [pos]
        grind
      · simp only [true_iff]
        exact ⟨i, by omega, hm, by simpa using h⟩
  | wait =>
    simp only
    split
    · next h =>
      refine ⟨?_, vm, va, vu, ?_, ?_, ?_, ?_, ?_, ?_, fun _ => h⟩
      · intro b; rw [vl]; cases b <;> simp [Want, pos]
      · simp
      · simp
      · exact fun _ _ => vb (by simp) (by simp)
      · exact fun _ _ _ => vb2 (by simp) (by simp) (by simp)
      · exact fun _ _ _ _ => vb3 (by simp) (by simp) (by simp) (by simp)
      · simp
    · exact ⟨vl, vm, va, vu, vlt, vst, vb, vb2, vb3, vn, vf⟩
  | ret b => exact ⟨vl, vm, va, vu, vlt, vst, vb, vb2, vb3, vn, vf⟩

theorem Inv.step {e : Env} {n : Nat} {s : St} (v : Inv e n s) (t : Nat) : Inv e n (step e n s t) := by
  cases t with
  | zero => exact v.mainStep
  | succ i => exact v.wrkStep i

theorem Inv.run {e : Env} {n : Nat} : ∀ (sched : List Nat) {s : St}, Inv e n s → Inv e n (run e n s sched) := by
  intro sched
  induction sched with
  | nil => exact fun v => v
  | cons t r ih => exact fun v => ih (v.step t)

/-- the state after a schedule -/
def after (e : Env) (num : Int) (sched : List Nat) : St := run e (count num) St.init sched

theorem after_inv (e : Env) (num : Int) (sched : List Nat) : Inv e (count num) (after e num sched) :=
  (Inv.init e _).run sched

/-- **C87** (a pool): under every schedule and whatever the system answers, when `thpool_init(num)` has returned a pool,
then `max(num, 0)` workers are running and no other, the pool counts exactly them, its memory is the pool, the
semaphore, the table and one record for each worker, and nothing undefined has happened. -/
theorem init_pool (e : Env) (num : Int) (sched : List Nat) (h : (after e num sched).main = .ret true) :
    (∀ i, (i < (max num 0).toNat → (after e num sched).wrk i = .alive) ∧
      ((max num 0).toNat ≤ i → (after e num sched).wrk i = .none)) ∧
    (after e num sched).alive = (max num 0).toNat ∧
    (∀ b, (after e num sched).live b = true ↔ b = .pool ∨ b = .bsem ∨ b = .table ∨ ∃ i < (max num 0).toNat, b = .thread i) ∧
    (after e num sched).ub = false := by
  have hc : (max num 0).toNat = count num := by unfold count; split <;> omega
  rw [hc]
  have v := after_inv e num sched
  generalize after e num sched = s at *
  generalize count num = n at *
  have ha := v.full h
  have hall : ∀ i, i < n → s.wrk i = .alive := by
    intro i hi
    have := count_eq_all (v.alive.symm.trans ha) i hi
    simpa using this
  have hmem : ∀ i, i < n → e.mem (.thread i) = true ∧ e.create i = true := by
    intro i hi
    exact ((v.made i).1 (by rw [hall i hi]; simp)).2
  refine ⟨fun i => ⟨hall i, fun hi => ?_⟩, ha, ?_, ?_⟩
  · by_cases hn : s.wrk i = .none
    · exact hn
    · have := ((v.made i).1 hn).1
      rw [h] at this
      simp only [pos] at this
      omega
  · intro b
    rw [v.live, h]
    cases b with
    | thread i =>
      simp [Want, pos]
      exact fun hi => (hmem i hi).1
    | _ => simp [Want]
  · cases hu : s.ub with
    | false => rfl
    | true =>
      obtain ⟨i, h1, _, h3⟩ := v.ub.1 hu
      rw [h] at h1
      rw [(hmem i h1).2] at h3
      cases h3

/-- **C87** (NULL): when `thpool_init` has returned NULL, one of its three first allocations has failed, everything it
allocated is freed, once, and no thread was made. -/
theorem init_null (e : Env) (num : Int) (sched : List Nat) (h : (after e num sched).main = .ret false) :
    (e.mem .pool = false ∨ e.mem .bsem = false ∨ e.mem .table = false) ∧
    (∀ b, (after e num sched).live b = false) ∧ (∀ i, (after e num sched).wrk i = .none) ∧
    (after e num sched).ub = false := by
  have v := after_inv e num sched
  generalize after e num sched = s at *
  refine ⟨v.null h, ?_, ?_, ?_⟩
  · intro b
    have := v.live b
    rw [h] at this
    cases hb : s.live b with
    | false => rfl
    | true =>
      have := this.1 hb
      cases b <;> simp [Want, pos] at this
  · intro i
    by_cases hn : s.wrk i = .none
    · exact hn
    · have := ((v.made i).1 hn).1
      rw [h] at this
      simp [pos] at this
  · cases hu : s.ub with
    | false => rfl
    | true =>
      obtain ⟨i, h1, _⟩ := v.ub.1 hu
      rw [h] at h1
      simp [pos] at h1

/-- **C87, finding**: if the memory for one of the thread records is refused, or a thread cannot be made,
`thpool_init` never returns (its loop waits for the missing thread), whatever the schedule. -/
theorem init_hangs (e : Env) (num : Int) (h0 : e.mem .pool = true) (h1 : e.mem .bsem = true) (h2 : e.mem .table = true)
    (i : Nat) (hi : i < (max num 0).toNat) (hf : e.mem (.thread i) = false ∨ e.create i = false) (sched : List Nat)
    (ok : Bool) : (after e num sched).main ≠ .ret ok := by
  intro h
  cases ok with
  | false =>
    have := (init_null e num sched h).1
    simp [h0, h1, h2] at this
  | true =>
    have hw := ((init_pool e num sched h).1 i).1 hi
    have v := after_inv e num sched
    have := ((v.made i).1 (by rw [hw]; simp)).2
    rcases hf with hf | hf
    · rw [hf] at this; cases this.1
    · rw [hf] at this; cases this.2

/-! ## Progress -/

/-- own steps of the caller until it waits -/
def mainLeft (n : Nat) : Main → Nat
  | .pool => 2 * n + 4
  | .queue => 2 * n + 3
  | .table => 2 * n + 2
  | .alloc i => 2 * (n - i) + 1
  | .start i => 2 * (n - i)
  | .wait => 0
  | .ret _ => 0

theorem next_left (n i : Nat) : mainLeft n (next n i) ≤ 2 * (n - i) + 1 ∧ (n ≤ i → mainLeft n (next n i) = 0) := by
  unfold next; split
  · simp only [mainLeft]; omega
  · simp [mainLeft]

theorem main_progress {e : Env} {n : Nat} {s : St} (v : Inv e n s) :
    mainLeft n (mainStep e n s).main < mainLeft n s.main ∨ mainLeft n (mainStep e n s).main = 0 := by
  unfold mainStep
  cases hm : s.main with
  | pool => simp only; split <;> simp [mainLeft]
  | queue => simp only; split <;> simp [mainLeft]
  | table =>
    simp only
    have := next_left n 0
    split
    · show mainLeft n (next n 0) < 2 * n + 2 ∨ mainLeft n (next n 0) = 0
      omega
    · simp [mainLeft]
  | alloc i =>
    have hi := v.lt i (.inl hm)
    simp only
    have := next_left n (i + 1)
    split
    · simp only [mainLeft]; omega
    · show mainLeft n (next n (i + 1)) < 2 * (n - i) + 1 ∨ mainLeft n (next n (i + 1)) = 0
      omega
  | start i =>
    have hi := v.lt i (.inr hm)
    simp only
    have := next_left n (i + 1)
    have hg : mainLeft n (next n (i + 1)) < 2 * (n - i) ∨ mainLeft n (next n (i + 1)) = 0 := by omega
    split <;> exact hg
  | wait => simp only; split <;> simp [mainLeft, hm]
  | ret b => simp [hm, mainLeft]

theorem wrk_main (s : St) (i : Nat) : (wrkStep s i).main = s.main := by
  unfold wrkStep; split <;> rfl

/-- the infinite execution under a schedule -/
def st (e : Env) (n : Nat) (σ : Nat → Nat) : Nat → St
  | 0 => St.init
  | k + 1 => step e n (st e n σ k) (σ k)

theorem st_run (e : Env) (n : Nat) (σ : Nat → Nat) (k : Nat) : st e n σ k = run e n St.init ((List.range k).map σ) := by
  induction k with
  | zero => rfl
  | succ k ih => simp [st, ih, List.range_succ, run, List.foldl_append]

theorem st_inv (e : Env) (n : Nat) (σ : Nat → Nat) (k : Nat) : Inv e n (st e n σ k) := by
  rw [st_run]; exact (Inv.init e n).run _

theorem left_mono (e : Env) (n : Nat) (σ : Nat → Nat) (k : Nat) : ∀ d,
    mainLeft n (st e n σ (k + d)).main ≤ mainLeft n (st e n σ k).main := by
  intro d
  induction d with
  | zero => exact Nat.le_refl _
  | succ d ih =>
    refine Nat.le_trans ?_ ih
    show mainLeft n (step e n (st e n σ (k + d)) (σ (k + d))).main ≤ _
    cases σ (k + d) with
    | zero =>
      show mainLeft n (mainStep e n (st e n σ (k + d))).main ≤ _
      have := main_progress (st_inv e n σ (k + d))
      omega
    | succ i =>
      show mainLeft n (wrkStep (st e n σ (k + d)) i).main ≤ _
      rw [wrk_main]
      exact Nat.le_refl _

theorem reaches_wait (e : Env) (n : Nat) (σ : Nat → Nat) (fair : ∀ k, ∃ k' ≥ k, σ k' = 0) :
    ∀ r k, mainLeft n (st e n σ k).main ≤ r → ∃ k' ≥ k, mainLeft n (st e n σ k').main = 0 := by
  intro r
  induction r with
  | zero => intro k h; exact ⟨k, Nat.le_refl _, by omega⟩
  | succ r ih =>
    intro k h
    obtain ⟨k1, hk, h0⟩ := fair k
    obtain ⟨d, rfl⟩ := Nat.exists_eq_add_of_le hk
    have hm := left_mono e n σ k d
    have hp := main_progress (st_inv e n σ (k + d))
    have hs : st e n σ (k + d + 1) = mainStep e n (st e n σ (k + d)) := by
      show step e n (st e n σ (k + d)) (σ (k + d)) = _
      rw [h0]; rfl
    rw [← hs] at hp
    obtain ⟨k', h1, h2⟩ := ih (k + d + 1) (by omega)
    exact ⟨k', by omega, h2⟩

theorem main_wrk (e : Env) (n : Nat) (s : St) (i : Nat) (h : mainLeft n s.main = 0) (hs : ∀ j, s.main ≠ .start j) :
    (mainStep e n s).wrk i = s.wrk i := by
  unfold mainStep
  cases hm : s.main with
  | wait => simp only; split <;> rfl
  | ret b => rfl
  | start j => exact absurd hm (hs j)
  | _ => rw [hm] at h; simp [mainLeft] at h

theorem done_cases {n : Nat} {e : Env} {s : St} (v : Inv e n s) (h : mainLeft n s.main = 0) :
    s.main = .wait ∨ ∃ b, s.main = .ret b := by
  cases hm : s.main with
  | wait => exact .inl rfl
  | ret b => exact .inr ⟨b, rfl⟩
  | start i =>
    have := v.lt i (.inr hm)
    rw [hm] at h; simp only [mainLeft] at h; omega
  | _ => rw [hm] at h; simp [mainLeft] at h

theorem alive_stays (e : Env) (n : Nat) (σ : Nat → Nat) (k i : Nat) (h0 : mainLeft n (st e n σ k).main = 0)
    (h : (st e n σ k).wrk i = .alive) : ∀ d, (st e n σ (k + d)).wrk i = .alive := by
  intro d
  induction d with
  | zero => exact h
  | succ d ih =>
    show (step e n (st e n σ (k + d)) (σ (k + d))).wrk i = .alive
    cases σ (k + d) with
    | zero =>
      show (mainStep e n (st e n σ (k + d))).wrk i = .alive
      have hl : mainLeft n (st e n σ (k + d)).main = 0 := by
        have := left_mono e n σ k d
        omega
      rw [main_wrk _ _ _ _ hl, ih]
      intro j hj
      rcases done_cases (st_inv e n σ (k + d)) hl with h | ⟨b, h⟩ <;> rw [h] at hj <;> cases hj
    | succ j =>
      show (wrkStep (st e n σ (k + d)) j).wrk i = .alive
      unfold wrkStep
      split
      · simp only [set]; split
        · rfl
        · exact ih
      · exact ih

/-- **C87** (progress): if the system refuses nothing, `thpool_init` returns a pool in every execution in which no
thread is suspended for ever. -/
theorem init_returns (e : Env) (num : Int) (hm : ∀ b, e.mem b = true) (hc : ∀ i, e.create i = true) (σ : Nat → Nat)
    (fair : ∀ t ≤ (max num 0).toNat, ∀ k, ∃ k' ≥ k, σ k' = t) :
    ∃ k, (after e num ((List.range k).map σ)).main = .ret true := by
  have hc' : (max num 0).toNat = count num := by unfold count; split <;> omega
  rw [hc'] at fair
  unfold after
  simp only [← st_run]
  generalize count num = n at fair
  obtain ⟨k0, _, h0⟩ := reaches_wait e n σ (fair 0 (Nat.zero_le _)) _ 0 (Nat.le_refl _)
  have left0 : ∀ d, mainLeft n (st e n σ (k0 + d)).main = 0 := by
    intro d; have := left_mono e n σ k0 d; omega
  have notnull : ∀ k, (st e n σ k).main ≠ .ret false := by
    intro k h
    have := (st_inv e n σ k).null h
    simp [hm] at this
  have all : ∀ m, m ≤ n → ∃ d, ∀ i, i < m → (st e n σ (k0 + d)).wrk i = .alive := by
    intro m
    induction m with
    | zero => intro _; exact ⟨0, fun i hi => by omega⟩
    | succ m ih =>
      intro hmn
      obtain ⟨d, hd⟩ := ih (by omega)
      obtain ⟨k1, hk, h1⟩ := fair (m + 1) hmn (k0 + d)
      obtain ⟨d', rfl⟩ := Nat.exists_eq_add_of_le hk
      have hp : pos n (st e n σ (k0 + d + d')).main = n := by
        have h2 : mainLeft n (st e n σ (k0 + d + d')).main = 0 := by rw [Nat.add_assoc]; exact left0 _
        rcases done_cases (st_inv e n σ (k0 + d + d')) h2 with h | ⟨b, h⟩
        · rw [h]; rfl
        · cases b with
          | true => rw [h]; rfl
          | false => exact absurd h (notnull _)
      have hw : (st e n σ (k0 + d + d')).wrk m ≠ .none := by
        rw [(st_inv e n σ (k0 + d + d')).made, hp]
        exact ⟨by omega, hm _, hc _⟩
      have ha : (st e n σ (k0 + d + d' + 1)).wrk m = .alive := by
        show (step e n (st e n σ (k0 + d + d')) (σ (k0 + d + d'))).wrk m = .alive
        rw [h1]
        show (wrkStep (st e n σ (k0 + d + d')) m).wrk m = .alive
        unfold wrkStep
        cases hx : (st e n σ (k0 + d + d')).wrk m with
        | none => exact absurd hx hw
        | boot => simp [set]
        | alive => simp [hx]
      refine ⟨d + d' + 1, fun i hi => ?_⟩
      by_cases hi' : i = m
      · rw [hi', show k0 + (d + d' + 1) = k0 + d + d' + 1 by omega]; exact ha
      · have := alive_stays e n σ (k0 + d) i (left0 d) (hd i (by omega)) (d' + 1)
        rw [show k0 + (d + d' + 1) = k0 + d + (d' + 1) by omega]
        exact this
  obtain ⟨d, hd⟩ := all n (Nat.le_refl _)
  obtain ⟨k1, hk, h1⟩ := fair 0 (Nat.zero_le _) (k0 + d)
  obtain ⟨d', rfl⟩ := Nat.exists_eq_add_of_le hk
  have hall : ∀ i, i < n → (st e n σ (k0 + d + d')).wrk i = .alive := fun i hi =>
    alive_stays e n σ (k0 + d) i (left0 d) (hd i hi) d'
  have hal : (st e n σ (k0 + d + d')).alive = n := by
    rw [(st_inv e n σ (k0 + d + d')).alive]
    have : (List.range n).countP (fun i => decide ((st e n σ (k0 + d + d')).wrk i = .alive)) = (List.range n).length := by
      rw [List.countP_eq_length]
      intro i hi
      simpa using hall i (List.mem_range.1 hi)
    rw [this, List.length_range]
  refine ⟨k0 + d + d' + 1, ?_⟩
  show (step e n (st e n σ (k0 + d + d')) (σ (k0 + d + d'))).main = .ret true
  rw [h1]
  show (mainStep e n (st e n σ (k0 + d + d'))).main = .ret true
  have h2 : mainLeft n (st e n σ (k0 + d + d')).main = 0 := by rw [Nat.add_assoc]; exact left0 _
  unfold mainStep
  rcases done_cases (st_inv e n σ (k0 + d + d')) h2 with h | ⟨b, h⟩
  · simp [h, hal]
  · cases b with
    | true => simp [h]
    | false => exact absurd h (notnull _)

/-- own steps of the caller until it has all three blocks, or NULL -/
def left3 : Main → Nat
  | .pool => 3
  | .queue => 2
  | .table => 1
  | _ => 0

/-- **C87** (failure is reported): if one of the three first allocations is refused, `thpool_init` returns NULL after
three steps of its own at most. -/
theorem null_returns (e : Env) (num : Int) (hf : e.mem .pool = false ∨ e.mem .bsem = false ∨ e.mem .table = false)
    (sched : List Nat) (h3 : 3 ≤ sched.count 0) : (after e num sched).main = .ret false := by
  have key : ∀ (sched : List Nat) (s : St), Inv e (count num) s →
      left3 s.main ≤ sched.count 0 →
      (run e (count num) s sched).main = .ret false := by
    intro sched
    induction sched with
    | nil =>
      intro s v h
      show s.main = .ret false
      have b1 := v.base; have b2 := v.base2; have b3 := v.base3
      cases hm : s.main with
      | ret b => cases b with
        | false => rfl
        | true => simp_all
      | _ => simp_all [left3]
    | cons t r ih =>
      intro s v h
      apply ih _ (v.step t)
      cases t with
      | succ i =>
        rw [List.count_cons_of_ne (by simp)] at h
        show left3 (wrkStep s i).main ≤ _
        rw [wrk_main]; exact h
      | zero =>
        rw [List.count_cons_self] at h
        show left3 (mainStep e (count num) s).main ≤ _
        have b1 := v.base; have b2 := v.base2; have b3 := v.base3
        unfold mainStep
        cases hm : s.main with
        | pool =>
          rw [hm] at h
          simp only [left3] at h
          simp only
          split
          · simp only [left3]; omega
          · simp [left3]
        | queue =>
          rw [hm] at h
          simp only [left3] at h
          simp only
          split
          · simp only [left3]; omega
          · simp [left3]
        | table =>
          simp only
          split
          · next ht =>
            rw [hm] at b1 b2
            have c1 := b1 (by simp) (by simp)
            have c2 := b2 (by simp) (by simp) (by simp)
            rw [c1, c2, ht] at hf
            simp at hf
          · simp [left3]
        | ret b => simp [hm, left3]
        | _ => simp_all
  exact key sched St.init (Inv.init _ _) h3

/-! ## What `thpool_destroy` frees -/

theorem freeThreads_spec (total : Nat) : ∀ (k : Nat) (s : St), k ≤ total →
    (∀ i, total - k ≤ i → i < total → s.live (.thread i) = true) →
    (freeThreads s total k).ub = s.ub ∧
    ∀ b, (freeThreads s total k).live b = true ↔ s.live b = true ∧ ∀ i, total - k ≤ i → i < total → b ≠ .thread i := by
  intro k
  induction k with
  | zero =>
    intro s _ _
    refine ⟨rfl, fun b => ?_⟩
    simp only [freeThreads]
    constructor
    · intro h; exact ⟨h, fun i h1 h2 => by omega⟩
    · exact fun h => h.1
  | succ k ih =>
    intro s hk hl
    have h1 : s.live (.thread (total - (k + 1))) = true := hl _ (Nat.le_refl _) (by omega)
    obtain ⟨a, b⟩ := ih (s.free (.thread (total - (k + 1)))) (by omega) (by
      intro i h2 h3
      show set s.live (.thread (total - (k + 1))) false (.thread i) = true
      unfold set
      rw [if_neg (by simp; omega)]
      exact hl i (by omega) h3)
    constructor
    · show (freeThreads (s.free _) total k).ub = s.ub
      rw [a]
      simp [St.free, h1]
    · intro x
      show (freeThreads (s.free _) total k).live x = true ↔ _
      rw [b]
      simp only [St.free, set]
      constructor
      · rintro ⟨h2, h3⟩
        split at h2
        · cases h2
        · next hne =>
          refine ⟨h2, fun i h4 h5 => ?_⟩
          by_cases he : i = total - (k + 1)
          · rw [he]; exact hne
          · exact h3 i (by omega) h5
      · rintro ⟨h2, h3⟩
        rw [if_neg (h3 _ (Nat.le_refl _) (by omega))]
        exact ⟨h2, fun i h4 h5 => h3 i (by omega) h5⟩

/-- **C87** (destruction): after the workers have left, `thpool_destroy` of a pool made by `thpool_init` frees every
block of it, each once. -/
theorem destroy_all (e : Env) (num : Int) (sched : List Nat) (h : (after e num sched).main = .ret true) :
    (∀ b, (destroy (after e num sched) (after e num sched).alive).live b = false) ∧
    (destroy (after e num sched) (after e num sched).alive).ub = false := by
  obtain ⟨_, ha, hl, hu⟩ := init_pool e num sched h
  rw [ha]
  generalize after e num sched = s at *
  generalize (max num 0).toNat = n at *
  have hb : s.live .bsem = true := by rw [hl]; simp
  have ht : s.live .table = true := by rw [hl]; simp
  have hp : s.live .pool = true := by rw [hl]; simp
  obtain ⟨a, b⟩ := freeThreads_spec n n (s.free .bsem) (Nat.le_refl _) (by
    intro i _ hi
    show set s.live .bsem false (.thread i) = true
    simp only [set]
    rw [if_neg (by simp), hl]
    simp [hi])
  unfold destroy
  generalize freeThreads (s.free .bsem) n n = u at a b
  have ut : u.live .table = true := by rw [b]; simp [St.free, set, ht]
  have up : u.live .pool = true := by rw [b]; simp [St.free, set, hp]
  constructor
  · intro x
    simp only [St.free, set]
    split
    · rfl
    · split
      · rfl
      · next h1 h2 =>
        cases hx : u.live x with
        | false => rfl
        | true =>
          obtain ⟨h3, h4⟩ := (b x).1 hx
          simp only [St.free, set] at h3
          split at h3
          · cases h3
          · next h5 =>
            rcases (hl x).1 h3 with h | h | h | ⟨i, hi, h⟩
            · exact absurd h h1
            · exact absurd h h5
            · exact absurd h h2
            · exact absurd h (h4 i (by omega) hi)
  · simp [St.free, set, ut, up, a, hu, hb]

/-- **C87, finding**: if a thread cannot be made, `pthread_detach` is called on a thread id that was never written. -/
theorem detach_unset (e : Env) (num : Int) (sched : List Nat) (hw : (after e num sched).main = .wait)
    (i : Nat) (hi : i < (max num 0).toNat) (hm : e.mem (.thread i) = true) (hf : e.create i = false) :
    (after e num sched).ub = true := by
  rw [(after_inv e num sched).ub, hw]
  have hc : (max num 0).toNat = count num := by unfold count; split <;> omega
  exact ⟨i, by rw [← hc]; exact hi, hm, hf⟩

/-- everything granted: two workers -/
def rich : Env := ⟨fun _ => true, fun _ => true⟩

example : (after rich 2 [0, 0, 0, 0, 0, 1, 0, 0, 0, 0, 2, 0]).main = .ret true ∧
    (after rich (-5) [0, 0, 0, 0]).main = .ret true := by decide

/-- a schedule in turn is fair -/
example : ∃ k, (after rich 2 ((List.range k).map (fun k => k % 3))).main = .ret true :=
  init_returns rich 2 (fun _ => rfl) (fun _ => rfl) _ (fun t ht k =>
    ⟨3 * k + t, by omega, by
      have h : t ≤ 2 := ht
      show (3 * k + t) % 3 = t
      omega⟩)

/-- the table refused; the second thread refused: the caller waits -/
example : (after ⟨fun b => b ≠ .table, fun _ => true⟩ 2 [0, 0, 0]).main = .ret false ∧
    (after ⟨fun _ => true, fun i => i = 0⟩ 2 [0, 0, 0, 0, 0, 1, 0, 0, 0, 0, 2, 0]).main = .wait := by decide

end Verif.ThpoolInit
