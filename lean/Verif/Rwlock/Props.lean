import Verif.Rwlock.Model

/-! # The reader/writer lock of the simple Windows pthread layer (C56) -/
namespace Verif.Rwlock

/-! ## Counting threads -/

/-- How many of the `N` threads satisfy `P`. -/
def num (N : Nat) (P : Pc → Bool) (f : Nat → Pc) : Nat := (List.range N).countP (fun k => P (f k))

/-- 1 if true. -/
def ind (b : Bool) : Nat := if b then 1 else 0

theorem num_upd {N : Nat} (P : Pc → Bool) (f : Nat → Pc) {t : Nat} (ht : t < N) (c : Pc) :
    num N P (fun k => if k = t then c else f k) + ind (P (f t)) = num N P f + ind (P c) := by
  induction N with
  | zero => omega
  | succ N ih =>
    simp only [num, List.range_succ, List.countP_append, List.countP_singleton] at ih ⊢
    by_cases h : t = N
    · subst h
      have : (List.range t).countP (fun k => P (if k = t then c else f k)) =
          (List.range t).countP (fun k => P (f k)) := by
        apply List.countP_congr
        intro k hk
        have := List.mem_range.1 hk
        rw [if_neg (by omega)]
      rw [this]
      simp only [if_pos, ind]
      omega
    · have := ih (by omega)
      rw [if_neg (fun e : N = t => h e.symm)]
      simp only [ind] at *
      omega

theorem num_pos {N : Nat} {P : Pc → Bool} {f : Nat → Pc} {t : Nat} (ht : t < N) (h : P (f t) = true) :
    0 < num N P f := List.countP_pos_iff.2 ⟨t, List.mem_range.2 ht, h⟩

theorem num_zero {N : Nat} {P : Pc → Bool} {f : Nat → Pc} (h : num N P f = 0) {t : Nat} (ht : t < N) :
    P (f t) = false := by
  cases e : P (f t) with
  | false => rfl
  | true => have := num_pos ht e; omega

theorem num_ge {N : Nat} {P : Pc → Bool} {f : Nat → Pc} (h : 0 < num N P f) : ∃ t, t < N ∧ P (f t) = true := by
  obtain ⟨t, ht, h⟩ := List.countP_pos_iff.1 h
  exact ⟨t, List.mem_range.1 ht, h⟩

theorem num_two {N : Nat} {P : Pc → Bool} {f : Nat → Pc} {t t' : Nat} (ht : t < N) (ht' : t' < N)
    (hne : t ≠ t') (h : P (f t) = true) (h' : P (f t') = true) : 2 ≤ num N P f := by
  by_cases hi : P .idle = true
  · -- replace `t` by a state that fails `P`, if there is one
    by_cases hall : ∃ c, P c = false
    · obtain ⟨c, hc⟩ := hall
      have h1 := num_upd P f ht c
      have h2 : 0 < num N P (fun k => if k = t then c else f k) :=
        num_pos ht' (by rw [if_neg (Ne.symm hne)]; exact h')
      simp only [ind, h, hc] at h1
      simp at h1; omega
    · have hall : ∀ c, P c = true := fun c => by
        cases e : P c with
        | true => rfl
        | false => exact absurd ⟨c, e⟩ hall
      have : num N P f = N := by
        simp only [num, hall]
        rw [List.countP_eq_length.2 (by simp)]; simp
      omega
  · have h1 := num_upd P f ht .idle
    have h2 : 0 < num N P (fun k => if k = t then .idle else f k) :=
      num_pos ht' (by rw [if_neg (Ne.symm hne)]; exact h')
    simp only [ind, h] at h1
    simp only [hi] at h1
    simp at h1; omega

/-! ## Invariant -/

/-- counted in `m_readers` -/
def isIn : Pc → Bool
  | .rchk | .rheld | .runl | .wchk | .wheld | .wunl => true
  | _ => false
/-- counted in `m_writers` -/
def isW : Pc → Bool
  | .wchk | .wheld | .wunl => true
  | _ => false
/-- counted in `m_writersWaiting` -/
def isWw : Pc → Bool
  | .wwait => true
  | _ => false

structure Inv (N : Nat) (s : Sys) : Prop where
  readers : s.readers = num N isIn s.th
  writers : s.writers = num N isW s.th
  ww : s.ww = num N isWw s.th
  excl : 0 < s.writers → s.readers = 1
  le1 : s.writers ≤ 1
  wr : s.wr = true ↔ s.readers = 0
  rd : s.rd = true ↔ s.ww = 0 ∧ s.writers = 0
  nofail : ∀ t, s.th t ≠ .failed
  lt : ∀ t, s.th t ≠ .idle → t < N

theorem inv_init (N : Nat) : Inv N Sys.init := by
  have : ∀ P : Pc → Bool, P .idle = false → num N P Sys.init.th = 0 := by
    intro P h
    simp [num, Sys.init, h]
  exact ⟨(this isIn rfl).symm, (this isW rfl).symm, (this isWw rfl).symm, by simp [Sys.init], by simp [Sys.init],
    by simp [Sys.init], by simp [Sys.init], by simp [Sys.init], by simp [Sys.init]⟩

theorem go_th (s : Sys) (t : Nat) (c : Pc) : (s.go t c).th = fun k => if k = t then c else s.th k := rfl

/-- Every step keeps the invariant. -/
theorem inv_step {N : Nat} {s s' : Sys} (h : Inv N s) (st : Step N s s') : Inv N s' := by
  obtain ⟨i1, i2, i3, i4, i5, i6, i7, i8, i9⟩ := h
  have key : ∀ t c, t < N → c ≠ .failed → (∀ k, (s.go t c).th k ≠ .failed) ∧
      (∀ k, (s.go t c).th k ≠ .idle → k < N) := by
    intro t c ht hc
    constructor
    · intro k; simp only [go_th]; split
      · exact hc
      · exact i8 k
    · intro k; simp only [go_th]; split
      · intro _; omega
      · exact i9 k
  have up := fun (t : Nat) (ht : t < N) (c : Pc) (P : Pc → Bool) => num_upd P s.th ht c
  have hcall : ∀ t c, t < N → isIn c = isIn (s.th t) → isW c = isW (s.th t) → isWw c = isWw (s.th t) →
      c ≠ .failed → Inv N (s.go t c) := by
    intro t c ht h1 h2 h3 hc
    have u1 := up t ht c isIn
    have u2 := up t ht c isW
    have u3 := up t ht c isWw
    rw [h1] at u1; rw [h2] at u2; rw [h3] at u3
    exact ⟨by simp only [go_th]; simp only [Sys.go]; omega, by simp only [go_th]; simp only [Sys.go]; omega,
      by simp only [go_th]; simp only [Sys.go]; omega, i4, i5, i6, i7, (key t c ht hc).1, (key t c ht hc).2⟩
  cases st with
  | rdlock t ht e => exact hcall t _ ht (by simp [e, isIn]) (by simp [e, isW]) (by simp [e, isWw]) (by simp)
  | wrlock t ht e => exact hcall t _ ht (by simp [e, isIn]) (by simp [e, isW]) (by simp [e, isWw]) (by simp)
  | rdunlock t ht e => exact hcall t _ ht (by simp [e, isIn]) (by simp [e, isW]) (by simp [e, isWw]) (by simp)
  | wrunlock t ht e => exact hcall t _ ht (by simp [e, isIn]) (by simp [e, isW]) (by simp [e, isWw]) (by simp)
  | run t ht e =>
    have hin : isIn (s.th t) = true → 0 < s.readers := fun h => by rw [i1]; exact num_pos ht h
    have hw : isW (s.th t) = true → 0 < s.writers := fun h => by rw [i2]; exact num_pos ht h
    have hww : isWw (s.th t) = true → 0 < s.ww := fun h => by rw [i3]; exact num_pos ht h
    have hrw : isIn (s.th t) = true → isW (s.th t) = false → s.writers = 0 := by
      intro h1 h2
      rcases Nat.eq_zero_or_pos s.writers with h0 | h0
      · exact h0
      · exfalso
        obtain ⟨t', ht', hw'⟩ := num_ge (i2 ▸ h0)
        have hne : t ≠ t' := by rintro rfl; rw [h2] at hw'; cases hw'
        have h3 : isIn (s.th t') = true := by
          cases e' : s.th t' <;> simp [e', isW] at hw' <;> simp [isIn]
        have := num_two ht ht' hne h1 h3
        have := i4 h0
        omega
    have u1 := fun c => up t ht c isIn
    have u2 := fun c => up t ht c isW
    have u3 := fun c => up t ht c isWw
    cases hpc : s.th t with
    | idle => simp [run, hpc] at e
    | rheld => simp [run, hpc] at e
    | wheld => simp [run, hpc] at e
    | failed => simp [run, hpc] at e
    | rchk =>
      simp only [run, hpc] at e
      rw [if_pos (hrw (by simp [hpc, isIn]) (by simp [hpc, isW]))] at e
      cases e
      exact hcall t _ ht (by simp [hpc, isIn]) (by simp [hpc, isW]) (by simp [hpc, isWw]) (by simp)
    | wchk =>
      simp only [run, hpc] at e
      have := hw (by simp [hpc, isW])
      rw [if_pos (by omega)] at e
      cases e
      exact hcall t _ ht (by simp [hpc, isIn]) (by simp [hpc, isW]) (by simp [hpc, isWw]) (by simp)
    | rwait =>
      simp only [run, hpc] at e
      split at e
      · rename_i hr
        cases e
        have hr' := i7.1 hr
        have v1 := u1 .rchk; have v2 := u2 .rchk; have v3 := u3 .rchk
        simp only [hpc, isIn, isW, isWw, ind] at v1 v2 v3
        have k1 := key t .rchk ht (by simp)
        exact ⟨by simp only [Sys.go]; simp at v1; omega, by simp only [Sys.go]; simp at v2; omega,
          by simp only [Sys.go]; simp at v3; omega, by simp only [Sys.go]; omega, i5,
          by simp [Sys.go], i7, k1.1, k1.2⟩
      · cases e
    | wadd =>
      simp only [run, hpc] at e
      cases e
      have v1 := u1 .wwait; have v2 := u2 .wwait; have v3 := u3 .wwait
      simp only [hpc, isIn, isW, isWw, ind] at v1 v2 v3
      have k1 := key t .wwait ht (by simp)
      refine ⟨by simp only [Sys.go]; simp at v1; omega, by simp only [Sys.go]; simp at v2; omega,
          by simp only [Sys.go]; simp at v3; omega, i4, i5, i6, ?_, k1.1, k1.2⟩
      simp only [Sys.go]
      split
      · simp
      · rw [i7]; omega
    | wwait =>
      simp only [run, hpc] at e
      split at e
      · rename_i hr
        cases e
        have hr' := i6.1 hr
        have hw0 : s.writers = 0 := by omega
        have := hww (by simp [hpc, isWw])
        have v1 := u1 .wchk; have v2 := u2 .wchk; have v3 := u3 .wchk
        simp only [hpc, isIn, isW, isWw, ind] at v1 v2 v3
        have k1 := key t .wchk ht (by simp)
        exact ⟨by simp only [Sys.go]; simp at v1; omega, by simp only [Sys.go]; simp at v2; omega,
          by simp only [Sys.go]; simp at v3; omega, by simp only [Sys.go]; omega, by simp only [Sys.go]; omega,
          by simp [Sys.go], by simp [Sys.go], k1.1, k1.2⟩
      · cases e
    | runl =>
      simp only [run, hpc] at e
      cases e
      have h1 := hin (by simp [hpc, isIn])
      have h2 := hrw (by simp [hpc, isIn]) (by simp [hpc, isW])
      have v1 := u1 .idle; have v2 := u2 .idle; have v3 := u3 .idle
      simp only [hpc, isIn, isW, isWw, ind] at v1 v2 v3
      have k1 := key t .idle ht (by simp)
      refine ⟨by simp only [Sys.go]; simp at v1; omega, by simp only [Sys.go]; simp at v2; omega,
          by simp only [Sys.go]; simp at v3; omega, by simp only [Sys.go]; omega, by simp only [Sys.go]; omega,
          ?_, ?_, k1.1, k1.2⟩
      · simp only [Sys.go]
        split
        · simpa
        · rw [i6]; omega
      · simp only [Sys.go]
        split
        · simpa
        · rw [i7]; omega
    | wunl =>
      simp only [run, hpc] at e
      cases e
      have h1 := hin (by simp [hpc, isIn])
      have h2 := hw (by simp [hpc, isW])
      have h3 := i4 h2
      have v1 := u1 .idle; have v2 := u2 .idle; have v3 := u3 .idle
      simp only [hpc, isIn, isW, isWw, ind] at v1 v2 v3
      have k1 := key t .idle ht (by simp)
      refine ⟨by simp only [Sys.go]; simp at v1; omega, by simp only [Sys.go]; simp at v2; omega,
          by simp only [Sys.go]; simp at v3; omega, by simp only [Sys.go]; omega, by simp only [Sys.go]; omega,
          ?_, ?_, k1.1, k1.2⟩
      · simp only [Sys.go]
        split
        · simpa
        · rw [i6]; omega
      · simp only [Sys.go]
        split
        · simpa
        · rw [i7]; omega

theorem inv_reach {N : Nat} {s : Sys} (h : Reach N s) : Inv N s := by
  induction h with
  | init => exact inv_init N
  | step _ st ih => exact inv_step ih st

/-! ## Properties -/

/-- `rdlock` has returned and `unlock` was not called. -/
def HoldsRead (s : Sys) (t : Nat) : Prop := s.th t = .rheld
/-- `wrlock` has returned and `unlock` was not called. -/
def HoldsWrite (s : Sys) (t : Nat) : Prop := s.th t = .wheld

/-- C56: a writer never holds the lock together with any other holder. -/
theorem writer_exclusive {N : Nat} {s : Sys} (h : Reach N s) {t t' : Nat}
    (hw : HoldsWrite s t) (ho : HoldsRead s t' ∨ HoldsWrite s t') : t = t' := by
  have i := inv_reach h
  simp only [HoldsWrite, HoldsRead] at hw ho
  have ht := i.lt t (by simp [hw])
  have ht' := i.lt t' (by rcases ho with e | e <;> simp [e])
  have h1 : 0 < s.writers := by rw [i.writers]; exact num_pos ht (by simp [hw, isW])
  have h2 := i.excl h1
  refine Classical.byContradiction (fun hne => ?_)
  have := num_two ht ht' hne (P := isIn) (f := s.th) (by simp [hw, isIn])
    (by rcases ho with e | e <;> simp [e, isIn])
  have := i.readers
  omega

/-- C56: any number of readers may hold the lock at once. -/
theorem readers_share (N : Nat) : ∃ s, Reach N s ∧ ∀ t, t < N → HoldsRead s t := by
  have key : ∀ n, n ≤ N → ∃ s, Reach N s ∧ s.rd = true ∧ s.writers = 0 ∧ (∀ t, t < n → HoldsRead s t) ∧
      ∀ t, n ≤ t → s.th t = .idle := by
    intro n
    induction n with
    | zero => intro _; exact ⟨Sys.init, .init, rfl, rfl, by simp, by simp [Sys.init]⟩
    | succ n ih =>
      intro hn
      obtain ⟨s, h1, h2, h3, h4, h5⟩ := ih (by omega)
      have r1 := h1.step (.rdlock n (by omega) (h5 n (by omega)))
      have e2 : run (s.go n .rwait) n =
          some ({ s.go n .rwait with readers := s.readers + 1, wr := false }.go n .rchk) := by
        simp [run, Sys.go, h2]
      have r2 := r1.step (.run n (by omega) e2)
      have e3 : run ({ s.go n .rwait with readers := s.readers + 1, wr := false }.go n .rchk) n =
          some (({ s.go n .rwait with readers := s.readers + 1, wr := false }.go n .rchk).go n .rheld) := by
        simp [run, Sys.go, h3]
      refine ⟨_, r2.step (.run n (by omega) e3), h2, h3, fun t ht => ?_, fun t ht => ?_⟩
      · simp only [HoldsRead, Sys.go]
        split
        · rfl
        · exact h4 t (by omega)
      · simp only [Sys.go]
        rw [if_neg (by omega), if_neg (by omega), if_neg (by omega)]
        exact h5 t (by omega)
  obtain ⟨s, h1, _, _, h2, _⟩ := key N (Nat.le_refl _)
  exact ⟨s, h1, h2⟩

/-- The assertions in `rdlock` and `wrlock`, evaluated after the mutex is released, never fail. -/
theorem asserts_hold {N : Nat} {s : Sys} (h : Reach N s) (t : Nat) : s.th t ≠ .failed :=
  (inv_reach h).nofail t

/-- Writers come first: while a writer is registered as waiting, no reader gets the lock. -/
theorem writers_preferred {N : Nat} {s : Sys} (h : Reach N s) {w t : Nat} (hw : s.th w = .wwait)
    (ht : s.th t = .rwait) : run s t = none := by
  have i := inv_reach h
  have h1 : 0 < s.ww := by rw [i.ww]; exact num_pos (i.lt w (by simp [hw])) (by simp [hw, isWw])
  have h2 : s.rd ≠ true := fun e => by have := i.rd.1 e; omega
  simp [run, ht, h2]

/-- The lock is taken only when that is allowed, and whenever it is: a waiting reader can go on iff
no writer holds or waits, a waiting writer iff nobody is inside (a thread whose `unlock` has not got
the mutex yet still counts as inside). -/
theorem reader_enters_iff {N : Nat} {s : Sys} (h : Reach N s) {t : Nat} (ht : s.th t = .rwait) :
    (∃ s', run s t = some s') ↔
      ∀ k, s.th k ≠ .wwait ∧ s.th k ≠ .wchk ∧ s.th k ≠ .wheld ∧ s.th k ≠ .wunl := by
  have i := inv_reach h
  have e : (∃ s', run s t = some s') ↔ s.rd = true := by
    simp only [run, ht]; split <;> simp_all
  rw [e, i.rd, i.ww, i.writers]
  constructor
  · rintro ⟨h1, h2⟩ k
    by_cases hk : k < N
    · have a := num_zero h1 hk
      have b := num_zero h2 hk
      refine ⟨?_, ?_, ?_, ?_⟩ <;> intro e <;> simp [e, isWw, isW] at a b
    · have : s.th k = .idle := Classical.byContradiction (fun e => hk (i.lt k e))
      simp [this]
  · intro hk
    constructor
    · refine Nat.eq_zero_of_not_pos (fun h0 => ?_)
      obtain ⟨k, _, e⟩ := num_ge h0
      have := hk k
      cases ek : s.th k <;> simp_all [isWw]
    · refine Nat.eq_zero_of_not_pos (fun h0 => ?_)
      obtain ⟨k, _, e⟩ := num_ge h0
      have := hk k
      cases ek : s.th k <;> simp_all [isW]

theorem writer_enters_iff {N : Nat} {s : Sys} (h : Reach N s) {t : Nat} (ht : s.th t = .wwait) :
    (∃ s', run s t = some s') ↔
      ∀ k, s.th k = .idle ∨ s.th k = .rwait ∨ s.th k = .wadd ∨ s.th k = .wwait := by
  have i := inv_reach h
  have e : (∃ s', run s t = some s') ↔ s.wr = true := by
    simp only [run, ht]; split <;> simp_all
  rw [e, i.wr, i.readers]
  constructor
  · intro h1 k
    by_cases hk : k < N
    · have a := num_zero h1 hk
      have := i.nofail k
      cases ek : s.th k <;> simp_all [isIn]
    · exact Or.inl (Classical.byContradiction (fun e => hk (i.lt k e)))
  · intro hk
    refine Nat.eq_zero_of_not_pos (fun h0 => ?_)
    obtain ⟨k, _, e⟩ := num_ge h0
    have := hk k
    cases ek : s.th k <;> simp_all [isIn]

/-- No deadlock: while nobody holds the lock and some call is in progress, some thread can go on. -/
theorem no_deadlock {N : Nat} {s : Sys} (h : Reach N s)
    (hno : ∀ t, ¬ HoldsRead s t ∧ ¬ HoldsWrite s t) {t : Nat} (ht : s.th t ≠ .idle) :
    ∃ k s', k < N ∧ run s k = some s' := by
  have i := inv_reach h
  have free : ∀ k, s.th k ≠ .idle → s.th k ≠ .rwait → s.th k ≠ .wwait → ∃ s', run s k = some s' := by
    intro k h1 h2 h3
    have := i.nofail k
    have h4 := hno k
    simp only [HoldsRead, HoldsWrite] at h4
    simp only [run]
    split <;> (try split) <;> simp_all
  by_cases hf : ∃ k, s.th k ≠ .idle ∧ s.th k ≠ .rwait ∧ s.th k ≠ .wwait
  · obtain ⟨k, h1, h2, h3⟩ := hf
    obtain ⟨s', e⟩ := free k h1 h2 h3
    exact ⟨k, s', i.lt k h1, e⟩
  · have hall : ∀ k, s.th k = .idle ∨ s.th k = .rwait ∨ s.th k = .wwait := fun k =>
      Classical.byContradiction (fun hc => hf ⟨k, by grind⟩)
    by_cases hw : ∃ k, s.th k = .wwait
    · obtain ⟨k, hk⟩ := hw
      obtain ⟨s', e⟩ := (writer_enters_iff h hk).2 (fun j => by rcases hall j with e | e | e <;> simp [e])
      exact ⟨k, s', i.lt k (by simp [hk]), e⟩
    · have ht' : s.th t = .rwait := by
        rcases hall t with e | e | e
        · exact absurd e ht
        · exact e
        · exact absurd ⟨t, e⟩ hw
      obtain ⟨s', e⟩ := (reader_enters_iff h ht').2 (fun j => by
        have : s.th j ≠ .wwait := fun e => hw ⟨j, e⟩
        rcases hall j with e | e | e <;> simp [e] at this ⊢)
      exact ⟨t, s', i.lt t ht, e⟩

/-- Steps left for a thread once no new calls are made. -/
def left : Pc → Nat
  | .idle => 0 | .failed => 0 | .runl => 1 | .wunl => 1 | .rheld => 2 | .wheld => 2 | .rchk => 3
  | .wchk => 3 | .rwait => 4 | .wwait => 4 | .wadd => 5

/-- Steps without new calls of `rdlock` or `wrlock`. -/
inductive Drain (N : Nat) : Sys → Sys → Prop where
  | run {s s' : Sys} (t : Nat) (ht : t < N) (h : run s t = some s') : Drain N s s'
  | rdunlock {s : Sys} (t : Nat) (ht : t < N) (h : s.th t = .rheld) : Drain N s (s.go t .runl)
  | wrunlock {s : Sys} (t : Nat) (ht : t < N) (h : s.th t = .wheld) : Drain N s (s.go t .wunl)

theorem Drain.step {N : Nat} {s s' : Sys} (d : Drain N s s') : Step N s s' := by
  cases d with
  | run t ht h => exact .run t ht h
  | rdunlock t ht h => exact .rdunlock t ht h
  | wrunlock t ht h => exact .wrunlock t ht h

theorem sum_upd {N t : Nat} (ht : t < N) (f : Nat → Pc) (c : Pc) :
    ((List.range N).map (fun k => left (if k = t then c else f k))).sum + left (f t) =
      ((List.range N).map (fun k => left (f k))).sum + left c := by
  induction N with
  | zero => omega
  | succ N ih =>
    simp only [List.range_succ, List.map_append, List.sum_append, List.map_cons, List.map_nil,
      List.sum_cons, List.sum_nil]
    by_cases h : t = N
    · subst h
      have : (List.range t).map (fun k => left (if k = t then c else f k)) =
          (List.range t).map (fun k => left (f k)) :=
        List.map_congr_left (fun k hk => by have := List.mem_range.1 hk; rw [if_neg (by omega)])
      rw [this, if_pos rfl]; omega
    · have := ih (by omega)
      rw [if_neg (fun e : N = t => h e.symm)]
      omega

/-- Work left in all. -/
def rank (N : Nat) (s : Sys) : Nat := ((List.range N).map (fun k => left (s.th k))).sum

theorem Drain.rank {N : Nat} {s s' : Sys} (d : Drain N s s') : rank N s' < rank N s := by
  have key : ∀ (u : Sys) (t : Nat) (c : Pc), t < N → u.th = s.th → left c < left (s.th t) →
      Rwlock.rank N (u.go t c) < Rwlock.rank N s := by
    intro u t c ht hu hl
    have := sum_upd ht s.th c
    simp only [Rwlock.rank, Sys.go, hu]
    omega
  cases d with
  | run t ht h =>
    simp only [Rwlock.run] at h
    split at h <;> (try split at h) <;> cases h <;> apply key <;> simp_all [left]
  | rdunlock t ht h => exact key s t _ ht rfl (by simp [h, left])
  | wrunlock t ht h => exact key s t _ ht rfl (by simp [h, left])

/-- Sequences of such steps. -/
inductive Drains (N : Nat) : Nat → Sys → Sys → Prop where
  | nil {s : Sys} : Drains N 0 s s
  | cons {n : Nat} {s t u : Sys} : Drain N s t → Drains N n t u → Drains N (n + 1) s u

/-- Once no new calls are made every schedule is finite: at most five steps per thread. -/
theorem drains_bounded {N n : Nat} {s s' : Sys} (d : Drains N n s s') : n ≤ 5 * N := by
  have h1 : n + rank N s' ≤ rank N s := by
    induction d with
    | nil => omega
    | cons d _ ih => have := d.rank; omega
  have h2 : rank N s ≤ 5 * N := by
    have hl : ∀ c, left c ≤ 5 := by intro c; cases c <;> simp [left]
    clear d h1
    simp only [rank]
    induction N with
    | zero => simp
    | succ N ih =>
      simp only [List.range_succ, List.map_append, List.sum_append, List.map_cons, List.map_nil,
        List.sum_cons, List.sum_nil]
      have := hl (s.th N)
      omega
  omega

/-- ... and it can stop only when every call has returned and every holder has released: everybody
who called got the lock.  The lock is then as new. -/
theorem drained {N : Nat} {s : Sys} (h : Reach N s) (hstuck : ∀ s', ¬ Drain N s s') :
    (∀ t, s.th t = .idle) ∧ s.readers = 0 ∧ s.writers = 0 ∧ s.ww = 0 ∧ s.rd = true ∧ s.wr = true := by
  have i := inv_reach h
  have hno : ∀ t, ¬ HoldsRead s t ∧ ¬ HoldsWrite s t := fun t =>
    ⟨fun e => hstuck _ (.rdunlock t (i.lt t (by simp only [HoldsRead] at e; simp [e])) e),
     fun e => hstuck _ (.wrunlock t (i.lt t (by simp only [HoldsWrite] at e; simp [e])) e)⟩
  have hid : ∀ t, s.th t = .idle := fun t => Classical.byContradiction (fun ht => by
    obtain ⟨k, s', hk, e⟩ := no_deadlock h hno ht
    exact hstuck _ (.run k hk e))
  have hz : ∀ P : Pc → Bool, P .idle = false → num N P s.th = 0 := by
    intro P hP; simp [num, hid, hP]
  have h1 : s.readers = 0 := by rw [i.readers]; exact hz isIn rfl
  have h2 : s.writers = 0 := by rw [i.writers]; exact hz isW rfl
  have h3 : s.ww = 0 := by rw [i.ww]; exact hz isWw rfl
  exact ⟨hid, h1, h2, h3, i.rd.2 ⟨h3, h2⟩, i.wr.2 h1⟩

/-! ## First use -/

structure LInv (s : LSys) : Prop where
  made : (s.var = none ∧ s.made = 0) ∨ (s.var = some 0 ∧ s.made = 1)
  inside : ∀ t, s.th t = .check ∨ s.th t = .leave → s.own = some t
  past : ∀ t, s.th t = .leave ∨ s.th t = .load → s.var = some 0
  use : ∀ t o, s.th t = .use o → o = 0 ∧ s.var = some 0

theorem linv {s : LSys} (h : LReach s) : LInv s := by
  induction h with
  | init => exact ⟨Or.inl ⟨rfl, rfl⟩, by simp [LSys.init], by simp [LSys.init], by simp [LSys.init]⟩
  | step _ st ih =>
    obtain ⟨i1, i2, i3, i4⟩ := ih
    cases st <;> constructor <;> simp only [LSys.go] <;> grind

/-- However many threads use a statically initialised lock (or mutex) for the first time at once,
one object is created and all of them use it. -/
theorem initialised_once {s : LSys} (h : LReach s) :
    s.made ≤ 1 ∧ ∀ t t' o o', s.th t = .use o → s.th t' = .use o' → o = o' := by
  have i := linv h
  refine ⟨by rcases i.made with e | e <;> omega, fun t t' o o' h1 h2 => ?_⟩
  rw [(i.use t o h1).1, (i.use t' o' h2).1]

/-- Not vacuous: two threads have come through the initialisation. -/
example : ∃ s, LReach s ∧ s.th 0 = .use 0 ∧ s.th 1 = .use 0 := by
  refine ⟨_, ((((((((((LReach.init.step (.unset 0 rfl rfl)).step (.unset 1 rfl rfl)).step
    (.lock 0 rfl rfl)).step (.create 0 rfl rfl)).step (.unlock 0 rfl)).step
    (.lock 1 rfl rfl)).step (.found 1 0 rfl rfl)).step (.unlock 1 rfl)).step
    (.load 0 0 rfl rfl)).step (.load 1 0 rfl rfl)), rfl, rfl⟩

/-- Not vacuous: a reader inside, a writer waiting, a second reader kept out by it. -/
example : ∃ s, Reach 3 s ∧ HoldsRead s 0 ∧ s.th 1 = .wwait ∧ s.th 2 = .rwait := by
  refine ⟨_, ((((((Reach.init.step (.rdlock 0 (by omega) rfl)).step (.run 0 (by omega) rfl)).step
    (.run 0 (by omega) rfl)).step (.wrlock 1 (by omega) rfl)).step (.run 1 (by omega) rfl)).step
    (.rdlock 2 (by omega) rfl)), rfl, rfl, rfl⟩

/-- Sequences of steps during all of which thread `t` waits in `rdlock`; the number counts the
times a writer takes the lock. -/
inductive Starve (N t : Nat) : Nat → Sys → Sys → Prop where
  | nil {s : Sys} : s.th t = .rwait → Starve N t 0 s s
  | step {n : Nat} {s u v : Sys} : Starve N t n s u → Step N u v → v.th t = .rwait → Starve N t n s v
  | enter {n k : Nat} {s u v : Sys} : Starve N t n s u → u.th k = .wwait → run u k = some v → k < N →
      v.th t = .rwait → Starve N t (n + 1) s v

/-- A writer `a` inside, `b` idle, reader 2 waiting. -/
structure Busy (s : Sys) (a b : Nat) : Prop where
  a : s.th a = .wheld
  b : s.th b = .idle
  c : s.th 2 = .rwait
  ww : s.ww = 0
  readers : s.readers = 1
  writers : s.writers = 1

theorem busy_swap {n : Nat} {s s0 : Sys} {a b : Nat} (h : Busy s a b) (hs : Starve 3 2 n s0 s)
    (ha : a < 2) (hb : b < 2) (hab : a ≠ b) : ∃ s', Busy s' b a ∧ Starve 3 2 (n + 1) s0 s' := by
  obtain ⟨h1, h2, h3, h4, h5, h6⟩ := h
  have a2 : (2 : Nat) ≠ a := by omega
  have b2 : (2 : Nat) ≠ b := by omega
  have h7 := hs.step (.wrlock b (by omega) h2) (by simp [Sys.go, b2, h3])
  obtain ⟨s1, e1⟩ : ∃ s1, s1 = s.go b .wadd := ⟨_, rfl⟩
  rw [← e1] at h7
  obtain ⟨s2, e2⟩ : ∃ s2, run s1 b = some s2 := ⟨_, by rw [e1]; simp [run, Sys.go]; rfl⟩
  have f2 : s2.th b = .wwait ∧ s2.th a = .wheld ∧ s2.th 2 = .rwait ∧ s2.ww = 1 ∧ s2.readers = 1 ∧
      s2.writers = 1 := by
    subst e1; simp [run, Sys.go] at e2; subst e2; simp [*]
  have h8 := h7.step (.run b (by omega) e2) f2.2.2.1
  clear h7 e2 e1
  have h9 := h8.step (.wrunlock a (by omega) f2.2.1) (by simp [Sys.go, a2, f2])
  obtain ⟨s3, e3⟩ : ∃ s3, s3 = s2.go a .wunl := ⟨_, rfl⟩
  rw [← e3] at h9
  obtain ⟨s4, e4⟩ : ∃ s4, run s3 a = some s4 := ⟨_, by rw [e3]; simp [run, Sys.go]; rfl⟩
  have f4 : s4.th b = .wwait ∧ s4.th a = .idle ∧ s4.th 2 = .rwait ∧ s4.ww = 1 ∧ s4.readers = 0 ∧
      s4.writers = 0 ∧ s4.wr = true := by
    subst e3; simp [run, Sys.go] at e4; subst e4; simp [*, hab.symm]
  have h10 := h9.step (.run a (by omega) e4) f4.2.2.1
  clear h9 e4 e3
  obtain ⟨s5, e5⟩ : ∃ s5, run s4 b = some s5 := ⟨_, by simp [run, f4]; rfl⟩
  have f5 : s5.th b = .wchk ∧ s5.th a = .idle ∧ s5.th 2 = .rwait ∧ s5.ww = 0 ∧ s5.readers = 1 ∧
      s5.writers = 1 := by
    simp [run, f4, Sys.go] at e5; subst e5; simp [f4, hab, b2]
  have h11 := h10.enter f4.1 e5 (by omega) f5.2.2.1
  obtain ⟨s6, e6⟩ : ∃ s6, run s5 b = some s6 := ⟨_, by simp [run, f5]; rfl⟩
  have f6 : s6.th b = .wheld ∧ s6.th a = .idle ∧ s6.th 2 = .rwait ∧ s6.ww = 0 ∧ s6.readers = 1 ∧
      s6.writers = 1 := by
    simp [run, f5, Sys.go] at e6; subst e6; simp [f5, hab, b2]
  exact ⟨s6, ⟨f6.1, f6.2.1, f6.2.2.1, f6.2.2.2.1, f6.2.2.2.2.1, f6.2.2.2.2.2⟩,
    h11.step (.run b (by omega) e6) f6.2.2.1⟩

/-- Finding: readers can be starved.  With three threads there is a reachable state with a reader
waiting from which writers can take the lock any number of times while the reader keeps waiting. -/
theorem readers_starve : ∃ s, Reach 3 s ∧ s.th 2 = .rwait ∧ ∀ n, ∃ s', Starve 3 2 n s s' := by
  obtain ⟨s, hr, hb⟩ : ∃ s, Reach 3 s ∧ Busy s 0 1 :=
    ⟨_, (((((Reach.init.step (.wrlock 0 (by omega) rfl)).step (.run 0 (by omega) rfl)).step
      (.run 0 (by omega) rfl)).step (.run 0 (by omega) rfl)).step (.rdlock 2 (by omega) rfl)),
      ⟨rfl, rfl, rfl, rfl, rfl, rfl⟩⟩
  refine ⟨s, hr, hb.c, ?_⟩
  have key : ∀ n, ∃ s', Starve 3 2 n s s' ∧ (Busy s' 0 1 ∨ Busy s' 1 0) := by
    intro n
    induction n with
    | zero => exact ⟨s, .nil hb.c, Or.inl hb⟩
    | succ n ih =>
      obtain ⟨s', hs', hb' | hb'⟩ := ih
      · obtain ⟨u, h1, h2⟩ := busy_swap hb' hs' (by omega) (by omega) (by omega)
        exact ⟨u, h2, Or.inr h1⟩
      · obtain ⟨u, h1, h2⟩ := busy_swap hb' hs' (by omega) (by omega) (by omega)
        exact ⟨u, h2, Or.inl h1⟩
  exact fun n => ⟨_, (key n).choose_spec.1⟩

end Verif.Rwlock
