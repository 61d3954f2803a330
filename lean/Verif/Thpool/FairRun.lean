import Verif.Thpool.Fair
import Verif.Thpool.Order
/-! Liveness in fair infinite executions: the proof. -/
namespace Verif.Thpool
variable {J : Type}
open Verif.Fair (Exec Enabled)

/-- every thread inside the library (or in a job function) is scheduled fairly -/
def FairRun (x : Exec (Step (J := J))) : Prop := ∀ e, e.Internal → x.Strong e

variable {x : Exec (Step (J := J))}

theorem run_inv (h0 : Inv (x.st 0)) (k : Nat) : Inv (x.st k) :=
  Exec.always (n := 0) (P := Inv) h0 (fun k e _ hl h => h.step (x.ok k e hl)) k (Nat.zero_le _)

/-- a worker that is never asleep, never ends and never takes the semaphore cannot be possible again and again -/
theorem wdrain0 (h0 : Inv (x.st 0)) (hf : FairRun x) {i n : Nat}
    (hpc : ∀ k, n ≤ k → ∃ pc, (x.st k).wrk[i]? = some pc ∧ pc ≠ .asleep)
    (nt : ∀ k, n ≤ k → x.lab k = some (.wrk i) → (x.st (k + 1)).wrk[i]? ≠ some .recheck)
    (en : ∀ m, n ≤ m → ∃ k, m ≤ k ∧ Enabled Step (.wrk i) (x.st k)) : False := by
  refine (hf (.wrk i) trivial).drain (rkW i) n ?_ ?_ en
  · intro k hk hl
    exact rkW_own (x.ok k _ hl) (run_inv h0 _) (nt k hk hl)
  · intro k hk hl
    cases hc : x.lab k with
    | none => rw [x.idle k hc]; exact Nat.le_refl _
    | some e =>
      obtain ⟨pc, h1, h2⟩ := hpc k hk
      exact (rkW_oth (x.ok k e hc) (fun he => hl (by rw [hc, he])) h1 h2).2

/-- `rwmutex` is free again and again -/
theorem rw_free (h0 : Inv (x.st 0)) (hf : FairRun x) (m : Nat) : ∃ k, m ≤ k ∧ (x.st k).rw = none := by
  by_cases hc : ∃ k, m ≤ k ∧ (x.st k).rw = none
  · exact hc
  exfalso
  have hne : ∀ k, m ≤ k → (x.st k).rw ≠ none := fun k hk h => hc ⟨k, hk, h⟩
  obtain ⟨w, hw⟩ := Option.ne_none_iff_exists'.1 (hne m (Nat.le_refl _))
  have hall : ∀ k, m ≤ k → (x.st k).rw = some w := Exec.always (x := x) (n := m) (P := fun s : Sys J => s.rw = some w) hw (fun k e hk hl h => by
    rcases rw_step (x.ok k e hl) h with h | h
    · exact h
    · exact absurd h (hne _ (by omega)))
  cases w with
  | wrk i =>
    have hs : ∀ k, m ≤ k → ∃ pc, (x.st k).wrk[i]? = some pc ∧ WSec pc := fun k hk => by
      obtain ⟨L, q⟩ := (run_inv h0 k).q
      exact q.wown i (hall k hk)
    refine wdrain0 (n := m) (i := i) h0 hf ?_ ?_ ?_
    · intro k hk
      obtain ⟨pc, h1, h2⟩ := hs k hk
      exact ⟨pc, h1, by rintro rfl; exact h2⟩
    · intro k hk _ h
      obtain ⟨pc, h1, h2⟩ := hs (k + 1) (by omega)
      rw [h1] at h; simp at h; subst h; exact h2
    · intro k hk
      obtain ⟨pc, h1, h2⟩ := hs k hk
      refine ⟨k, Nat.le_refl _, wenabled (run_inv h0 k) h1 ?_ ?_ ?_ ?_⟩
      · rintro rfl; exact h2
      · rintro rfl; exact h2
      · intro h; cases pc <;> first | exact h2.elim | simp [needT] at h
      · rintro rfl; exact h2.elim
  | sub t =>
    have hs : ∀ k, m ≤ k → ∃ pc, (x.st k).sub[t]? = some pc ∧ SSec pc := fun k hk => by
      obtain ⟨L, q⟩ := (run_inv h0 k).q
      exact q.sown t (hall k hk)
    refine (hf (.sub t) trivial).drain (rkS t) m ?_ ?_ ?_
    · intro k hk hl
      obtain ⟨pc, h1, h2⟩ := hs k hk
      exact (smove (x.ok k _ hl) h1 (by rintro rfl; exact h2)).1 rfl
    · intro k hk hl
      cases hc : x.lab k with
      | none => rw [x.idle k hc]; exact Nat.le_refl _
      | some e =>
        obtain ⟨pc, h1, h2⟩ := hs k hk
        have := (smove (x.ok k e hc) h1 (by rintro rfl; exact h2)).2 (fun he => hl (by rw [hc, he]))
        simp only [rkS, h1, this]; exact Nat.le_refl _
    · intro k hk
      obtain ⟨pc, h1, h2⟩ := hs k hk
      refine ⟨k, Nat.le_refl _, senabled (run_inv h0 k) h1 ?_ ?_⟩
      · rintro rfl; exact h2
      · rintro p rfl; exact h2.elim

/-- `thcount_lock` is free again and again -/
theorem tc_free (h0 : Inv (x.st 0)) (hf : FairRun x) (m : Nat) : ∃ k, m ≤ k ∧ (x.st k).tc = none := by
  by_cases hc : ∃ k, m ≤ k ∧ (x.st k).tc = none
  · exact hc
  exfalso
  have hne : ∀ k, m ≤ k → (x.st k).tc ≠ none := fun k hk h => hc ⟨k, hk, h⟩
  obtain ⟨w, hw⟩ := Option.ne_none_iff_exists'.1 (hne m (Nat.le_refl _))
  have hall : ∀ k, m ≤ k → (x.st k).tc = some w := Exec.always (x := x) (n := m) (P := fun s : Sys J => s.tc = some w) hw (fun k e hk hl h => by
    rcases tc_step (x.ok k e hl) h with h | h
    · exact h
    · exact absurd h (hne _ (by omega)))
  cases w with
  | wt t =>
    have hs : ∀ k, m ≤ k → ∃ pc, (x.st k).wt[t]? = some pc ∧ TSec pc = true := fun k hk => (run_inv h0 k).life.own_t t (hall k hk)
    refine (hf (.wt t) trivial).drain (rkT t) m ?_ ?_ ?_
    · intro k hk hl
      obtain ⟨pc, h1, h2⟩ := hs k hk
      exact (tmove (x.ok k _ hl) h1 h2).1 rfl
    · intro k hk hl
      cases hc : x.lab k with
      | none => rw [x.idle k hc]; exact Nat.le_refl _
      | some e =>
        obtain ⟨pc, h1, h2⟩ := hs k hk
        have := (tmove (x.ok k e hc) h1 h2).2 (fun he => hl (by rw [hc, he]))
        simp only [rkT, h1, this]; exact Nat.le_refl _
    · intro k hk
      obtain ⟨pc, h1, h2⟩ := hs k hk
      exact ⟨k, Nat.le_refl _, tenabled h1 h2⟩
  | left i =>
    have hs : ∀ k, m ≤ k → (x.st k).wrk[i]? = some .left := fun k hk => (run_inv h0 k).life.own_l i (hall k hk)
    refine wdrain0 (n := m) (i := i) h0 hf ?_ ?_ ?_
    · intro k hk; exact ⟨_, hs k hk, by simp⟩
    · intro k hk _ h; rw [hs (k + 1) (by omega)] at h; simp at h
    · intro k hk; exact ⟨k, Nat.le_refl _, _, .left (hs k hk)⟩

/-- the mutexes become free, so a worker that is never asleep, never ends and never takes the semaphore is impossible -/
theorem wdrain (h0 : Inv (x.st 0)) (hf : FairRun x) {i n : Nat}
    (hpc : ∀ k, n ≤ k → ∃ pc, (x.st k).wrk[i]? = some pc ∧ pc ≠ .asleep ∧ pc ≠ .gone)
    (nt : ∀ k, n ≤ k → x.lab k = some (.wrk i) → (x.st (k + 1)).wrk[i]? ≠ some .recheck) : False := by
  refine wdrain0 h0 hf (fun k hk => by obtain ⟨pc, a, b, _⟩ := hpc k hk; exact ⟨pc, a, b⟩) nt ?_
  intro m hm
  by_cases hc : ∃ k, m ≤ k ∧ Enabled Step (.wrk i) (x.st k)
  · exact hc
  exfalso
  obtain ⟨pc, h1, h2, h3⟩ := hpc m hm
  have hall : ∀ k, m ≤ k → (x.st k).wrk[i]? = some pc := Exec.always (x := x) (n := m) (P := fun s : Sys J => s.wrk[i]? = some pc) h1 (fun k e hk hl h =>
    (rkW_oth (x.ok k e hl) (by rintro rfl; exact hc ⟨k, hk, _, x.ok k _ hl⟩) h h2).1)
  by_cases ht : needT pc = true
  · obtain ⟨k, hk, hn⟩ := tc_free h0 hf m
    exact hc ⟨k, hk, wenabled (run_inv h0 k) (hall k hk) h2 h3 (fun _ => hn) (by rintro rfl; simp [needT] at ht)⟩
  · obtain ⟨k, hk, hn⟩ := rw_free h0 hf m
    exact hc ⟨k, hk, wenabled (run_inv h0 k) (hall k hk) h2 h3 (fun h => absurd h ht) (fun _ => hn)⟩

/-- has taken the semaphore and not yet a job -/
def cset : Wrk → Bool
  | .recheck | .inc | .plock | .pread | .p1a _ | .p1b _ | .p1c _ | .p2a _ | .p2b _ => true
  | _ => false

theorem Nx.cset {s u : Sys J} {pc pc' : Wrk} (h : Nx s u pc pc') (hk : s.keep = true) (hl : s.len ≠ 0)
    (hd : u.dequeued.length = s.dequeued.length) (hc : cset pc = true) : cset pc' = true ∧ pc' ≠ .recheck := by
  cases pc <;> cases pc' <;> simp_all [Nx, Thpool.cset]

/-- from some time on: not being destroyed, jobs in the queue, none taken -/
structure Idle (x : Exec (Step (J := J))) (n : Nat) : Prop where
  keep : ∀ k, n ≤ k → (x.st k).keep = true
  len : ∀ k, n ≤ k → (x.st k).len ≠ 0
  deq : ∀ k, n ≤ k → (x.st (k + 1)).dequeued.length = (x.st k).dequeued.length

/-- then no worker has taken the semaphore -/
theorem Idle.no_cset (h0 : Inv (x.st 0)) (hf : FairRun x) {n : Nat} (hi : Idle x n) {k i : Nat} (hk : n ≤ k) {pc : Wrk}
    (hp : (x.st k).wrk[i]? = some pc) : cset pc = false := by
  cases hc : cset pc with
  | false => rfl
  | true =>
    exfalso
    have hall : ∀ j, k ≤ j → ∃ pc, (x.st j).wrk[i]? = some pc ∧ cset pc = true :=
      Exec.always (x := x) (n := k) (P := fun s : Sys J => ∃ pc, s.wrk[i]? = some pc ∧ cset pc = true) ⟨pc, hp, hc⟩ (fun j e hj hl h => by
        obtain ⟨pc, h1, h2⟩ := h
        by_cases he : e = .wrk i
        · subst he
          obtain ⟨a, b, c1, c2, c3⟩ := wmove (x.ok j _ hl) (run_inv h0 _)
          rw [h1] at c1; simp at c1; subst c1
          exact ⟨b, c2, (c3.cset (hi.keep j (by omega)) (hi.len j (by omega)) (hi.deq j (by omega)) h2).1⟩
        · exact ⟨pc, (rkW_oth (x.ok j e hl) he h1 (by rintro rfl; simp [cset] at h2)).1, h2⟩)
    refine wdrain (i := i) (n := k) h0 hf ?_ ?_
    · intro j hj
      obtain ⟨pc, h1, h2⟩ := hall j hj
      exact ⟨pc, h1, by rintro rfl; simp [cset] at h2, by rintro rfl; simp [cset] at h2⟩
    · intro j hj hl
      obtain ⟨pc, h1, h2⟩ := hall j hj
      obtain ⟨a, b, c1, c2, c3⟩ := wmove (x.ok j _ hl) (run_inv h0 _)
      rw [h1] at c1; simp at c1; subst c1
      have := (c3.cset (hi.keep j (by omega)) (hi.len j (by omega)) (hi.deq j (by omega)) h2).2
      rw [c2]; simpa using this

/-- and so nobody takes it -/
theorem Idle.no_take (h0 : Inv (x.st 0)) (hf : FairRun x) {n : Nat} (hi : Idle x n) {k i : Nat} (hk : n ≤ k) :
    (x.st k).wrk[i]? ≠ some .recheck := fun h => by
  have := hi.no_cset h0 hf hk h
  simp [cset] at this

/-- the semaphore is set at some time -/
theorem Idle.posted (h0 : Inv (x.st 0)) (hf : FairRun x) {n : Nat} (hi : Idle x n) : ∃ k, n ≤ k ∧ (x.st k).v = true := by
  by_cases hc : ∃ k, n ≤ k ∧ (x.st k).v = true
  · exact hc
  exfalso
  have hv : ∀ k, n ≤ k → (x.st k).v = false := fun k hk => by
    cases h : (x.st k).v with
    | false => rfl
    | true => exact absurd ⟨k, hk, h⟩ hc
  have hl := hi.len n (Nat.le_refl _)
  rcases (run_inv h0 n).tok.tok (hi.keep n (Nat.le_refl _)) (by omega) with h | ⟨i, pc, h1, h2⟩ | ⟨t, id, h1⟩
  · rw [hv n (Nat.le_refl _)] at h; simp at h
  · have h3 := hi.no_cset h0 hf (Nat.le_refl _) h1
    have : ∃ jp id, pc = .p2c jp id := by
      cases pc with
      | p2c jp id => exact ⟨jp, id, rfl⟩
      | _ => first | (simp [carr] at h2; done) | (simp [cset] at h3; done)
    obtain ⟨jp, id, rfl⟩ := this
    have hst : ∀ k, n ≤ k → x.lab k = some (.wrk i) → (x.st k).wrk[i]? = some (.p2c jp id) → False := fun k hk hl h => by
      obtain ⟨a, b, c1, c2, c3⟩ := wmove (x.ok k _ hl) (run_inv h0 _)
      rw [h] at c1; simp at c1; subst c1
      have h4 := hv (k + 1) (by omega)
      cases b <;> simp [Nx] at c3
      rw [c3.2.2] at h4; simp at h4
    have hall : ∀ k, n ≤ k → (x.st k).wrk[i]? = some (.p2c jp id) :=
      Exec.always (x := x) (n := n) (P := fun s : Sys J => s.wrk[i]? = some (.p2c jp id)) h1 (fun k e hk hl h =>
        (rkW_oth (x.ok k e hl) (by rintro rfl; exact hst k hk hl h) h (by simp)).1)
    exact wdrain (i := i) (n := n) h0 hf (fun k hk => ⟨_, hall k hk, by simp, by simp⟩)
      (fun k hk hl => (hst k hk hl (hall k hk)).elim)
  · have hst : ∀ k, n ≤ k → x.lab k = some (.sub t) → (x.st k).sub[t]? = some (.s4 id) → False := fun k hk hl h => by
      have st := x.ok k _ hl
      have h4 := hv (k + 1) (by omega)
      generalize x.st (k + 1) = u at st h4
      cases st with
      | s4 e1 hp => obtain ⟨W, rfl, _⟩ := hp.eq; simp [Sys.atS] at h4
      | _ => (rename_i e1; simp_all)
    have hall : ∀ k, n ≤ k → (x.st k).sub[t]? = some (.s4 id) :=
      Exec.always (x := x) (n := n) (P := fun s : Sys J => s.sub[t]? = some (.s4 id)) h1 (fun k e hk hl h =>
        (smove (x.ok k e hl) h (by simp)).2 (by rintro rfl; exact hst k hk hl h))
    refine (hf (.sub t) trivial).drain (fun _ => 0) n (fun k hk hl => (hst k hk hl (hall k hk)).elim) (fun _ _ _ => Nat.le_refl _) ?_
    intro k hk
    exact ⟨k, Nat.le_refl _, senabled (run_inv h0 k) (hall k hk) (by simp) (by simp)⟩

/-- impossible, with a worker -/
theorem Idle.false (h0 : Inv (x.st 0)) (hf : FairRun x) {n : Nat} (hi : Idle x n) (hw : 0 < (x.st 0).wrk.length) : False := by
  obtain ⟨m, hm, hv⟩ := hi.posted h0 hf
  have hv : ∀ k, m ≤ k → (x.st k).v = true := Exec.always (x := x) (n := m) (P := fun s : Sys J => s.v = true) hv (fun k e hk hl h => by
    rcases v_step (x.ok k e hl) h with h | ⟨i, _, h⟩
    · exact h
    · exact absurd h (hi.no_take h0 hf (by omega)))
  have nt : ∀ (i k : Nat), m ≤ k → x.lab k = some (.wrk i) → (x.st (k + 1)).wrk[i]? ≠ some .recheck := fun i k hk _ =>
    hi.no_take h0 hf (by omega)
  -- a worker that is awake stays so, and never ends
  have awake : ∀ (i : Nat) pc, (x.st m).wrk[i]? = some pc → pc ≠ .asleep → False := by
    intro i pc h1 h2
    have hall : ∀ k, m ≤ k → ∃ pc, (x.st k).wrk[i]? = some pc ∧ pc ≠ .asleep :=
      Exec.always (x := x) (n := m) (P := fun s : Sys J => ∃ pc, s.wrk[i]? = some pc ∧ pc ≠ .asleep) ⟨pc, h1, h2⟩ (fun k e hk hl h => by
        obtain ⟨pc, h1, h2⟩ := h
        by_cases he : e = .wrk i
        · subst he
          obtain ⟨a, b, c1, c2, c3⟩ := wmove (x.ok k _ hl) (run_inv h0 _)
          refine ⟨b, c2, ?_⟩
          rintro rfl
          have := hv k hk
          cases a <;> simp [Nx] at c3 <;> simp_all
        · exact ⟨pc, (rkW_oth (x.ok k e hl) he h1 h2).1, h2⟩)
    refine wdrain (i := i) (n := m) h0 hf ?_ (nt i)
    intro k hk
    obtain ⟨pc, h1, h2⟩ := hall k hk
    refine ⟨pc, h1, h2, ?_⟩
    rintro rfl
    have := (run_inv h0 k).life.out i _ h1 rfl
    rw [hi.keep k (by omega)] at this; simp at this
  rcases (run_inv h0 m).tok.wake (hv m (Nat.le_refl _)) with ⟨i, h⟩ | h
  · exact awake i _ h (by simp)
  · have hlen : ∀ k, 0 ≤ k → (x.st k).wrk.length = (x.st 0).wrk.length :=
      Exec.always (x := x) (n := 0) (P := fun s : Sys J => s.wrk.length = (x.st 0).wrk.length) rfl (fun k e hk hl h =>
        (length_step (x.ok k e hl)).1.trans h)
    have hm0 : 0 < (x.st m).wrk.length := by rw [hlen m (Nat.zero_le _)]; exact hw
    have h1 : (x.st m).wrk[0]? = some (x.st m).wrk[0] := List.getElem?_eq_getElem hm0
    exact awake 0 _ h1 (fun e => h 0 (by rw [h1, e]))

end Verif.Thpool
