import Verif.Thpool.FairRun
import Verif.Thpool.Props
/-!
# C53, C62: liveness of the thread pool in fair infinite executions

`FairRun x`: in the infinite execution `x`, every thread that is inside the library or inside a job function and can move
again and again, moves again and again (strong fairness; a worker inside a job function can always move: job functions
return).  New calls may arrive all the time, spurious wake-ups may happen at any time.
-/
namespace Verif.Thpool
variable {J : Type}
open Verif.Fair (Exec Enabled)

variable {x : Exec (Step (J := J))}

/-- every job is taken from the queue -/
theorem every_job_taken (h0 : Inv (x.st 0)) (hf : FairRun x) (hd : ∀ k, (x.st k).dst = .no)
    (hw : 0 < (x.st 0).wrk.length) {n id : Nat} (hid : id < (x.st n).added.length) :
    ∃ k, n ≤ k ∧ id < (x.st k).dequeued.length := by
  by_cases hc : ∃ k, n ≤ k ∧ id < (x.st k).dequeued.length
  · exact hc
  exfalso
  have hlt : ∀ k, n ≤ k → (x.st k).dequeued.length ≤ id := fun k hk => by
    rcases Nat.lt_or_ge id (x.st k).dequeued.length with h | h
    · exact absurd ⟨k, hk, h⟩ hc
    · exact h
  have hmono : ∀ k, (x.st k).dequeued.length ≤ (x.st (k + 1)).dequeued.length := fun k => by
    cases hl : x.lab k with
    | none => rw [x.idle k hl]; exact Nat.le_refl _
    | some e => exact (grows (x.ok k e hl)).1
  have hadd : ∀ k, n ≤ k → id < (x.st k).added.length :=
    Exec.always (x := x) (n := n) (P := fun s : Sys J => id < s.added.length) hid (fun k e hk hl h =>
      Nat.lt_of_lt_of_le h (grows (x.ok k e hl)).2.1)
  obtain ⟨m, hm, hs⟩ := Fair.settles (fun k => id - (x.st k).dequeued.length) n (fun k hk => by
    have := hmono k; omega)
  refine Idle.false (n := m) h0 hf ⟨?_, ?_, ?_⟩ hw
  · intro k hk
    cases hc : (x.st k).keep with
    | true => rfl
    | false => exact absurd (hd k) ((run_inv h0 k).life.keep.1 hc)
  · intro k hk
    obtain ⟨L, q⟩ := (run_inv h0 k).q
    have h1 : (x.st k).len = L.length := q.base.len
    have h2 : L.length + (x.st k).dequeued.length = (x.st k).added.length := q.base.cnt
    have := hadd k (by omega)
    have := hlt k (by omega)
    omega
  · intro k hk
    have h1 := hs k hk
    have h2 := hs (k + 1) (by omega)
    have h3 := hlt k (by omega)
    have h4 := hlt (k + 1) (by omega)
    omega

/-- where a worker is that has taken job `id` and not yet finished it -/
def holds (id : Nat) : Wrk → Bool
  | .p2c (some _) k | .punl (some _) k | .call (some _) k | .running _ k => k = id
  | _ => false

theorem Nx.holds {s u : Sys J} {pc pc' : Wrk} {id : Nat} (h : Nx s u pc pc') (hp : holds id pc = true) :
    (holds id pc' = true ∧ pc' ≠ .recheck) ∨ id ∈ u.done := by
  cases pc with
  | p2c jp k =>
    cases jp with
    | none => simp [Thpool.holds] at hp
    | some p => cases pc' <;> simp_all [Nx, Thpool.holds]
  | punl jp k =>
    cases jp with
    | none => simp [Thpool.holds] at hp
    | some p => cases pc' <;> simp_all [Nx, Thpool.holds]
  | call jp k =>
    cases jp with
    | none => simp [Thpool.holds] at hp
    | some p => cases pc' <;> simp_all [Nx, Thpool.holds]
  | running p k => cases pc' <;> simp_all [Nx, Thpool.holds]
  | _ => simp [Thpool.holds] at hp

/-- **C53** (every job is executed, in every fair execution): in every infinite execution that starts in a reachable
state, in which threads are scheduled fairly and the pool (with at least one worker) is not destroyed, every job that has
entered the queue at some time has been executed at some later time — however many calls arrive meanwhile. -/
theorem every_job_executed_fair (x : Exec (Step (J := J))) (h : Reach (x.st 0)) (hf : FairRun x)
    (hd : ∀ k, (x.st k).dst = .no) (hw : 0 < (x.st 0).wrk.length) (n id : Nat) (hid : id < (x.st n).added.length) :
    ∃ k, n ≤ k ∧ id ∈ (x.st k).done := by
  have h0 := h.inv
  obtain ⟨m, hm, hdeq⟩ := every_job_taken h0 hf hd hw hid
  by_cases hc : ∃ k, n ≤ k ∧ id ∈ (x.st k).done
  · exact hc
  exfalso
  have hnd : ∀ k, m ≤ k → id ∉ (x.st k).done := fun k hk h => hc ⟨k, by omega, h⟩
  have hI := run_inv h0 m
  have hpc : ∃ (i : Nat) (pc : Wrk), (x.st m).wrk[i]? = some pc ∧ holds id pc = true := by
    rcases hI.jobs.all id hdeq with h1 | ⟨i, pc, h1, h2⟩
    · rcases hI.jobs.fin id h1 with h1 | ⟨i, pc, h1, h2⟩
      · exact absurd h1 (hnd m (Nat.le_refl _))
      · cases pc with
        | running p k => simp [run] at h2; subst h2; exact ⟨i, _, ‹_›, by simp [holds]⟩
        | _ => simp [run] at h2
    · cases pc with
      | p2c jp k => cases jp with
        | none => simp [pre] at h2
        | some p => simp [pre] at h2; subst h2; exact ⟨i, _, ‹_›, by simp [holds]⟩
      | punl jp k => cases jp with
        | none => simp [pre] at h2
        | some p => simp [pre] at h2; subst h2; exact ⟨i, _, ‹_›, by simp [holds]⟩
      | call jp k => cases jp with
        | none => simp [pre] at h2
        | some p => simp [pre] at h2; subst h2; exact ⟨i, _, ‹_›, by simp [holds]⟩
      | _ => simp [pre] at h2
  obtain ⟨i, pc, h1, h2⟩ := hpc
  have hall : ∀ k, m ≤ k → ∃ pc, (x.st k).wrk[i]? = some pc ∧ holds id pc = true :=
    Exec.always (x := x) (n := m) (P := fun s : Sys J => ∃ pc, s.wrk[i]? = some pc ∧ holds id pc = true) ⟨pc, h1, h2⟩
      (fun k e hk hl h => by
        obtain ⟨pc, h1, h2⟩ := h
        by_cases he : e = .wrk i
        · subst he
          obtain ⟨a, b, c1, c2, c3⟩ := wmove (x.ok k _ hl) (run_inv h0 _)
          rw [h1] at c1; simp at c1; subst c1
          rcases c3.holds h2 with h | h
          · exact ⟨b, c2, h.1⟩
          · exact absurd h (hnd (k + 1) (by omega))
        · exact ⟨pc, (rkW_oth (x.ok k e hl) he h1 (by rintro rfl; simp [holds] at h2)).1, h2⟩)
  refine wdrain (i := i) (n := m) h0 hf ?_ ?_
  · intro k hk
    obtain ⟨pc, h1, h2⟩ := hall k hk
    exact ⟨pc, h1, by rintro rfl; simp [holds] at h2, by rintro rfl; simp [holds] at h2⟩
  · intro k hk _ h
    obtain ⟨pc, h1, h2⟩ := hall (k + 1) (by omega)
    rw [h1] at h; simp at h; subst h; simp [holds] at h2

/-- **C53** (`thpool_add_work` returns): in every fair execution every call of `thpool_add_work` comes to its end. -/
theorem add_work_returns_fair (x : Exec (Step (J := J))) (h : Reach (x.st 0)) (hf : FairRun x) (n t : Nat)
    (ht : t < (x.st n).sub.length) : ∃ k, n ≤ k ∧ (x.st k).sub[t]? = some .idle := by
  have h0 := h.inv
  by_cases hc : ∃ k, n ≤ k ∧ (x.st k).sub[t]? = some .idle
  · exact hc
  exfalso
  have hne : ∀ k, n ≤ k → (x.st k).sub[t]? ≠ some .idle := fun k hk h => hc ⟨k, hk, h⟩
  have hlen : ∀ k, n ≤ k → t < (x.st k).sub.length :=
    Exec.always (x := x) (n := n) (P := fun s : Sys J => t < s.sub.length) ht (fun k e hk hl h => by
      have := x.ok k e hl
      generalize x.st (k + 1) = u at this ⊢
      cases this with
      | p2c e1 hp => obtain ⟨W, rfl, _⟩ := hp.eq; exact h
      | s4 e1 hp => obtain ⟨W, rfl, _⟩ := hp.eq; simpa [Sys.atS] using h
      | dec_last e1 e2 e3 hn => obtain ⟨T, rfl, _⟩ := hn.eq; exact h
      | _ => first | exact h | simpa [Sys.atS] using h)
  have hpc : ∀ k, n ≤ k → ∃ pc, (x.st k).sub[t]? = some pc ∧ pc ≠ .idle := fun k hk => by
    have := List.getElem?_eq_getElem (hlen k hk)
    exact ⟨_, this, fun e => hne k hk (by rw [this, e])⟩
  refine (hf (.sub t) trivial).drain (rkS t) n ?_ ?_ ?_
  · intro k hk hl
    obtain ⟨pc, h1, h2⟩ := hpc k hk
    exact (smove (x.ok k _ hl) h1 h2).1 rfl
  · intro k hk hl
    cases hc : x.lab k with
    | none => rw [x.idle k hc]; exact Nat.le_refl _
    | some e =>
      obtain ⟨pc, h1, h2⟩ := hpc k hk
      have := (smove (x.ok k e hc) h1 h2).2 (fun he => hl (by rw [hc, he]))
      simp only [rkS, h1, this]; exact Nat.le_refl _
  · intro m hm
    by_cases hc : ∃ k, m ≤ k ∧ Enabled Step (.sub t) (x.st k)
    · exact hc
    exfalso
    obtain ⟨pc, h1, h2⟩ := hpc m hm
    have hall : ∀ k, m ≤ k → (x.st k).sub[t]? = some pc :=
      Exec.always (x := x) (n := m) (P := fun s : Sys J => s.sub[t]? = some pc) h1 (fun k e hk hl h =>
        (smove (x.ok k e hl) h h2).2 (by rintro rfl; exact hc ⟨k, hk, _, x.ok k _ hl⟩))
    obtain ⟨k, hk, hn⟩ := rw_free h0 hf m
    exact hc ⟨k, hk, senabled (run_inv h0 k) (hall k hk) h2 (fun _ _ => hn)⟩

/-! ## C62 -/

/-- how far a worker is from its end, once the pool is being destroyed -/
def rz : Wrk → Nat
  | .gone => 0 | .left => 1 | .leave => 2 | .recheck => 3 | .asleep => 4 | .enter => 4 | .woken => 4 | .test => 5 | .boot => 6
  | .dec => 6 | .free _ _ => 7 | .running _ _ => 8 | .call _ _ => 9 | .punl _ _ => 10
  | .p2c _ _ => 11 | .p2b _ => 12 | .p2a _ => 13 | .p1c _ => 12 | .p1b _ => 13 | .p1a _ => 14
  | .pread => 15 | .plock => 16 | .inc => 17 | .ub => 0

theorem Nx.rz {s u : Sys J} {pc pc' : Wrk} (h : Nx s u pc pc') (hk : s.keep = false) :
    rz pc' < rz pc ∨ (pc' = .asleep ∧ rz pc = 4 ∧ s.v = false) := by
  cases pc <;> cases pc' <;> simp_all [Nx, Thpool.rz]

/-- the other workers, under an own step -/
theorem wothers {i : Nat} {s u : Sys J} (st : Step (.wrk i) s u) (hu : Inv u) :
    ∃ pc pc' W, s.wrk[i]? = some pc ∧ Wakes s.wrk W ∧ W[i]? = some pc ∧ u.wrk = W.set i pc' ∧ Nx s u pc pc' := by
  obtain ⟨pc, pc', h1, h2, h3⟩ := wmove st hu
  have fin : ∀ {W : List Wrk} {y : Wrk}, Wakes s.wrk W → W[i]? = some pc → u.wrk = W.set i y →
      ∃ pc pc' W, s.wrk[i]? = some pc ∧ Wakes s.wrk W ∧ W[i]? = some pc ∧ u.wrk = W.set i pc' ∧ Nx s u pc pc' := by
    intro W y hW hi hu
    refine ⟨pc, pc', W, h1, hW, hi, ?_, h3⟩
    rw [hu, set_self hi] at h2
    simp at h2; rw [hu, h2]
  cases st with
  | p2c e1 hp =>
    obtain ⟨W, rfl, hW, _⟩ := hp.eq
    rw [h1] at e1; simp at e1; subst e1
    exact fin hW (hW.get h1 (by simp)) rfl
  | dec_last e1 e2 e3 hn => obtain ⟨T, rfl, _⟩ := hn.eq; exact fin (.refl _) h1 rfl
  | _ => exact fin (.refl _) h1 rfl

theorem oth_wakes {e : Ev} {s u : Sys J} (st : Step e s u) (he : ∀ i, e ≠ .wrk i) : Wakes s.wrk u.wrk := by
  cases st with
  | s4 e1 hp => obtain ⟨W, rfl, hW, _⟩ := hp.eq; exact hW
  | spur_w e1 => exact .set e1
  | d_post => exact .map _
  | _ => first | exact .refl _ | exact absurd rfl (he _)

theorem rz_step {e : Ev} {s u : Sys J} (st : Step e s u) (hu : Inv u) (hk : s.keep = false) :
    cnt rz u.wrk ≤ cnt rz s.wrk ∧ (∀ i, e = .wrk i → cnt rz u.wrk = cnt rz s.wrk → s.v = false) := by
  by_cases he : ∃ i, e = .wrk i
  · obtain ⟨i, rfl⟩ := he
    obtain ⟨pc, pc', W, h1, hW, h2, h3, h4⟩ := wothers st hu
    have hc := hW.cnt (f := rz) rfl
    have h5 := cnt_set rz pc' h2
    rw [← h3] at h5
    rcases h4.rz hk with h | ⟨h, h', hv⟩
    · exact ⟨by omega, fun _ _ e => by omega⟩
    · subst h
      have : rz .asleep = 4 := rfl
      exact ⟨by omega, fun _ _ _ => hv⟩
  · have hW := oth_wakes st (fun i h => he ⟨i, h⟩)
    have hc := hW.cnt (f := rz) rfl
    exact ⟨by omega, fun i h => absurd ⟨i, h⟩ he⟩

theorem dst_step {e : Ev} {s u : Sys J} (st : Step e s u) (h : s.dst ≠ .no) :
    (e ≠ .dst → u.dst = s.dst) ∧ (e = .dst → (s.dst = .loop ∧ s.alive ≠ 0 ∧ u.dst = .post) ∨
      (s.dst = .post ∧ u.dst = .loop ∧ u.v = true ∧ ∀ i : Nat, u.wrk[i]? ≠ some .asleep) ∨ u.dst = .freed) := by
  cases st with
  | destroy e1 => exact absurd e1 h
  | d_more e1 e2 => exact ⟨by simp, fun _ => .inl ⟨e1, e2, rfl⟩⟩
  | d_post e1 =>
    refine ⟨by simp, fun _ => .inr (.inl ⟨e1, rfl, rfl, fun i hi => ?_⟩)⟩
    simp only [List.getElem?_map] at hi
    cases hx : s.wrk[i]? with
    | none => rw [hx] at hi; simp at hi
    | some y =>
      rw [hx] at hi
      simp only [Option.map_some, Option.some.injEq] at hi
      split at hi
      · simp at hi
      · next hne => exact hne hi
  | d_free e1 e2 => exact ⟨by simp, fun _ => .inr (.inr rfl)⟩
  | p2c e1 hp => obtain ⟨W, rfl, _⟩ := hp.eq; exact ⟨fun _ => rfl, by simp⟩
  | s4 e1 hp => obtain ⟨W, rfl, _⟩ := hp.eq; exact ⟨fun _ => rfl, by simp⟩
  | dec_last e1 e2 e3 hn => obtain ⟨T, rfl, hT⟩ := hn.eq; exact ⟨fun _ => rfl, by simp⟩
  | _ => exact ⟨fun _ => rfl, by simp⟩

/-- **C62** (`thpool_destroy` ends, in every fair execution): once `thpool_destroy` has been called, in every infinite
execution in which the pool's threads and the destroying thread are scheduled fairly (so job functions return), it comes
to its end. -/
theorem destroy_ends_fair (x : Exec (Step (J := J))) (h : Reach (x.st 0)) (hf : ∀ e, e.Own → x.Strong e)
    (n : Nat) (hn : (x.st n).dst ≠ .no) : ∃ k, n ≤ k ∧ (x.st k).dst = .freed := by
  have h0 := h.inv
  have hf' : FairRun x := fun e he => hf e (by cases e <;> first | exact he | exact he.elim)
  by_cases hc : ∃ k, n ≤ k ∧ (x.st k).dst = .freed
  · exact hc
  exfalso
  have hnf : ∀ k, n ≤ k → (x.st k).dst ≠ .freed := fun k hk h => hc ⟨k, hk, h⟩
  have hd : ∀ k, n ≤ k → (x.st k).dst ≠ .no :=
    Exec.always (x := x) (n := n) (P := fun s : Sys J => s.dst ≠ .no) hn (fun k e hk hl h => by
      have := dst_step (x.ok k e hl) h
      by_cases he : e = .dst
      · rcases this.2 he with ⟨_, _, h⟩ | ⟨_, h, _⟩ | h <;> simp [h]
      · rw [this.1 he]; exact h)
  have hkeep : ∀ k, n ≤ k → (x.st k).keep = false := fun k hk => (run_inv h0 k).life.keep.2 (hd k hk)
  -- the destroyer always can move
  have den : ∀ k, n ≤ k → Enabled Step .dst (x.st k) := fun k hk => by
    cases hc : (x.st k).dst with
    | no => exact absurd hc (hd k hk)
    | freed => exact absurd hc (hnf k hk)
    | post => exact ⟨_, .d_post hc⟩
    | loop =>
      by_cases ha : (x.st k).alive = 0
      · exact ⟨_, .d_free hc ha⟩
      · exact ⟨_, .d_more hc ha⟩
  have dio : ∀ m, ∃ k, m ≤ k ∧ x.lab k = some .dst := hf .dst trivial (fun m =>
    ⟨max n m, by omega, den _ (by omega)⟩)
  -- the workers' ranks settle
  obtain ⟨m, hm, hs⟩ := Fair.settles (fun k => cnt rz (x.st k).wrk) n (fun k hk => by
    cases hl : x.lab k with
    | none => rw [x.idle k hl]; exact Nat.le_refl _
    | some e => exact (rz_step (x.ok k e hl) (run_inv h0 _) (hkeep k hk)).1)
  have hv0 : ∀ k i, m ≤ k → x.lab k = some (.wrk i) → (x.st k).v = false := fun k i hk hl =>
    (rz_step (x.ok k _ hl) (run_inv h0 _) (hkeep k (by omega))).2 i rfl (by rw [hs k hk, hs (k + 1) (by omega)])
  -- at some time the destroyer posts
  have step_dst : ∀ k, n ≤ k → x.lab k ≠ some .dst → (x.st (k + 1)).dst = (x.st k).dst := fun k hk hl => by
    cases hc : x.lab k with
    | none => rw [x.idle k hc]
    | some e => exact (dst_step (x.ok k e hc) (hd k hk)).1 (fun he => hl (by rw [hc, he]))
  -- the destroyer's next step
  have next : ∀ j, n ≤ j → ∃ k, j ≤ k ∧ x.lab k = some .dst ∧ (x.st k).dst = (x.st j).dst := by
    intro j hj
    obtain ⟨k, hk, hl⟩ := dio j
    -- the first one
    have : ∀ d j, n ≤ j → x.lab (j + d) = some .dst → ∃ k, j ≤ k ∧ x.lab k = some .dst ∧ (x.st k).dst = (x.st j).dst := by
      intro d
      induction d with
      | zero => intro j _ h; exact ⟨j, Nat.le_refl _, h, rfl⟩
      | succ d ih =>
        intro j hj h
        by_cases hl : x.lab j = some .dst
        · exact ⟨j, Nat.le_refl _, hl, rfl⟩
        · obtain ⟨k, h1, h2, h3⟩ := ih (j + 1) (by omega) (by rw [show j + 1 + d = j + (d + 1) by omega]; exact h)
          exact ⟨k, by omega, h2, by rw [h3, step_dst j hj hl]⟩
    obtain ⟨d, rfl⟩ := Nat.exists_eq_add_of_le hk
    exact this d j hj hl
  have post : ∀ j, n ≤ j → ∃ k, j < k ∧ (x.st k).dst = .loop ∧ (x.st k).v = true ∧ ∀ i : Nat, (x.st k).wrk[i]? ≠ some .asleep := by
    have fromPost : ∀ j, n ≤ j → (x.st j).dst = .post → ∃ k, j < k ∧ (x.st k).dst = .loop ∧ (x.st k).v = true ∧
        ∀ i : Nat, (x.st k).wrk[i]? ≠ some .asleep := by
      intro j hj hp
      obtain ⟨k, h1, h2, h3⟩ := next j hj
      rcases (dst_step (x.ok k _ h2) (hd k (by omega))).2 rfl with ⟨h, _⟩ | ⟨_, a, b, c⟩ | h
      · rw [h3, hp] at h; simp at h
      · exact ⟨k + 1, by omega, a, b, c⟩
      · exact absurd h (hnf (k + 1) (by omega))
    intro j hj
    cases hc : (x.st j).dst with
    | no => exact absurd hc (hd j hj)
    | freed => exact absurd hc (hnf j hj)
    | post => exact fromPost j hj hc
    | loop =>
      obtain ⟨k, h1, h2, h3⟩ := next j hj
      rcases (dst_step (x.ok k _ h2) (hd k (by omega))).2 rfl with ⟨_, _, h⟩ | ⟨h, _⟩ | h
      · obtain ⟨r, hr, rest⟩ := fromPost (k + 1) (by omega) h
        exact ⟨r, by omega, rest⟩
      · rw [h3, hc] at h; simp at h
      · exact absurd h (hnf (k + 1) (by omega))
  obtain ⟨p, hp, hp1, hp2, hp3⟩ := post m (by omega)
  -- from then on the semaphore stays set, so no worker moves and none sleeps
  have hall : ∀ k, p ≤ k → (x.st k).v = true ∧ ∀ i : Nat, (x.st k).wrk[i]? ≠ some .asleep :=
    Exec.always (x := x) (n := p) (P := fun s : Sys J => s.v = true ∧ ∀ i : Nat, s.wrk[i]? ≠ some .asleep) ⟨hp2, hp3⟩
      (fun k e hk hl h => by
        have hne : ∀ i, e ≠ .wrk i := by
          rintro i rfl
          have := hv0 k i (by omega) hl
          rw [h.1] at this; simp at this
        constructor
        · rcases v_step (x.ok k e hl) h.1 with h | ⟨i, he, _⟩
          · exact h
          · exact absurd he (hne i)
        · intro i hi
          rcases (oth_wakes (x.ok k e hl) hne).back hi with h' | ⟨h', _⟩
          · exact h.2 i h'
          · simp at h')
  have nomove : ∀ k i, p ≤ k → x.lab k ≠ some (.wrk i) := fun k i hk hl => by
    have := hv0 k i (by omega) hl
    rw [(hall k hk).1] at this; simp at this
  -- so every worker has ended
  have hgone : ∀ (i : Nat) pc, (x.st p).wrk[i]? = some pc → pc = .gone := by
    intro i pc h1
    by_cases hg : pc = .gone
    · exact hg
    exfalso
    have hstay : ∀ k, p ≤ k → (x.st k).wrk[i]? = some pc :=
      Exec.always (x := x) (n := p) (P := fun s : Sys J => s.wrk[i]? = some pc) h1 (fun k e hk hl h => by
        refine (rkW_oth (x.ok k e hl) ?_ h ?_).1
        · rintro rfl; exact nomove k i hk hl
        · rintro rfl; exact (hall k hk).2 i h)
    refine wdrain (i := i) (n := p) h0 hf' ?_ ?_
    · intro k hk
      exact ⟨pc, hstay k hk, by rintro rfl; exact (hall k hk).2 i (hstay k hk), hg⟩
    · intro k hk hl; exact absurd hl (nomove k i hk)
  have hgone : ∀ k, p ≤ k → ∀ (i : Nat) pc, (x.st k).wrk[i]? = some pc → pc = .gone :=
    Exec.always (x := x) (n := p) (P := fun s : Sys J => ∀ (i : Nat) pc, s.wrk[i]? = some pc → pc = .gone) hgone
      (fun k e hk hl h i pc hi => by
        have hne : ∀ i, e ≠ .wrk i := by rintro i rfl; exact nomove k i hk hl
        rcases (oth_wakes (x.ok k e hl) hne).back hi with h' | ⟨_, h'⟩
        · exact h i pc h'
        · have := h i _ h'; simp at this)
  obtain ⟨k, h1, h2, h3⟩ := next p (by omega)
  rcases (dst_step (x.ok k _ h2) (hd k (by omega))).2 rfl with ⟨_, h, _⟩ | ⟨h, _⟩ | h
  · refine h ?_
    rw [(run_inv h0 k).alive, cnt_zero]
    intro i a ha
    rw [hgone k h1 i a ha]; rfl
  · rw [h3, hp1] at h; simp at h
  · exact hnf (k + 1) (by omega) h

/-! ## concrete fair executions -/

/-- nothing inside the library can move when all workers sleep (or have ended) and nobody is inside a call -/
theorem rest_stuck {s : Sys J} (hw : ∀ (i : Nat) x, s.wrk[i]? = some x → x = .asleep ∨ x = .gone)
    (hs : ∀ (t : Nat) x, s.sub[t]? = some x → x = .idle) (ht : ∀ (t : Nat) x, s.wt[t]? = some x → x = .idle) : Stuck s := by
  intro e u he st
  cases st with
  | take h => rcases h with h | h <;> (have := hw _ _ h; simp at this)
  | sleep h => rcases h with h | h <;> (have := hw _ _ h; simp at this)
  | init => exact he
  | spur_w => exact he
  | spur_t => exact he
  | add => exact he
  | wait => exact he
  | destroy => exact he
  | d_more => exact he
  | d_post => exact he
  | d_free => exact he
  | _ =>
    first
    | (have := hw _ _ (by assumption); simp at this; done)
    | (have := hs _ _ (by assumption); simp at this; done)
    | (have := ht _ _ (by assumption); simp at this; done)

theorem execs_runs (es : List Ev) (s : Sys Nat) : execs es s = Fair.runs exec es s := by
  induction es generalizing s with
  | nil => rfl
  | cons e es ih => simp only [execs, Fair.runs]; congr; funext t; exact ih t

/-- the hypotheses of `every_job_executed_fair` and `add_work_returns_fair` are met by an execution in which two jobs are
added (and `thpool_wait` is called) while the only worker has not yet started: both are executed -/
theorem fair_demo : ∃ (x : Exec (Step (J := Nat))), Reach (x.st 0) ∧ FairRun x ∧ (∀ k, (x.st k).dst = .no) ∧
    0 < (x.st 0).wrk.length ∧ (∃ n, (x.st n).added = [70, 71] ∧ (x.st n).done = []) ∧ ∃ k, (x.st k).done = [0, 1] := by
  have h : (execs demoEnd (start 1 1 1)).isSome = true := by decide +kernel
  obtain ⟨s, hs⟩ := Option.isSome_iff_exists.1 h
  rw [execs_runs] at hs
  have e1 : (execs demoEnd (start 1 1 1)).map (fun s => (s.wrk, s.sub, s.wt)) = some ([.asleep], [.idle], [.idle]) := by
    decide +kernel
  have e2 : (execs demoEnd (start 1 1 1)).map (fun s => s.done) = some [0, 1] := by decide +kernel
  have e3 : (execs (demoEnd.take 20) (start 1 1 1)).map (fun s => (s.added, s.done)) = some ([70, 71], []) := by decide +kernel
  rw [execs_runs] at e1 e2 e3
  rw [hs] at e1 e2
  simp only [Option.map_some, Option.some.injEq, _root_.Prod.mk.injEq] at e1 e2
  have sound : ∀ e s u, exec e s = some u → Step e s u := fun e s u h => exec_sound h
  refine ⟨Fair.finite sound hs, ?_, ?_, ?_, ?_, ⟨20, ?_⟩, demoEnd.length, ?_⟩
  · rw [Fair.finite_zero]; exact ⟨_, start_init 1 1 1, .refl _⟩
  · intro e he
    refine Fair.finite_fair sound hs (fun v hv => rest_stuck (s := s) ?_ ?_ ?_ e v he hv)
    · intro i x hx; rw [e1.1] at hx; have := List.mem_of_getElem? hx; left; simpa using this
    · intro i x hx; rw [e1.2.1] at hx; have := List.mem_of_getElem? hx; simpa using this
    · intro i x hx; rw [e1.2.2] at hx; have := List.mem_of_getElem? hx; simpa using this
  · intro k
    refine Exec.always (n := 0) (P := fun s : Sys Nat => s.dst = .no) (by rw [Fair.finite_zero]; rfl) ?_ k (Nat.zero_le _)
    intro j e _ hl hd
    have hm : e ∈ demoEnd := List.mem_of_getElem? hl
    have hne : e ≠ .dst := by
      rintro rfl
      have : ¬ (Ev.dst ∈ demoEnd) := by decide +kernel
      exact this hm
    have st := (Fair.finite sound hs).ok j e hl
    generalize (Fair.finite sound hs).st (j + 1) = u at st ⊢
    cases st with
    | p2c e1 hp => obtain ⟨W, rfl, _⟩ := hp.eq; exact hd
    | s4 e1 hp => obtain ⟨W, rfl, _⟩ := hp.eq; exact hd
    | dec_last e1 e2 e3 hn => obtain ⟨T, rfl, hT⟩ := hn.eq; exact hd
    | _ => first | exact hd | exact absurd rfl hne
  · rw [Fair.finite_zero]; simp [start]
  · show ((Fair.runs exec (demoEnd.take 20) (start 1 1 1)).getD (start 1 1 1)).added = _ ∧ ((Fair.runs exec (demoEnd.take 20) (start 1 1 1)).getD (start 1 1 1)).done = _
    cases hc : Fair.runs exec (demoEnd.take 20) (start 1 1 1) with
    | none => rw [hc] at e3; simp at e3
    | some t => rw [hc] at e3; simpa using e3
  · rw [Fair.finite_end sound hs (Nat.le_refl _)]; exact e2

/-- destroy a busy pool -/
def destroyEnd : List Ev := destroyBusy

/-- the hypotheses of `destroy_ends_fair` are met by an execution in which `thpool_destroy` is called while a job runs and
another one is queued -/
theorem destroy_demo : ∃ (x : Exec (Step (J := Nat))), Reach (x.st 0) ∧ (∀ e, e.Own → x.Strong e) ∧
    ∃ n, (x.st n).dst = .loop ∧ Running (x.st n) 0 ∧ (x.st n).len = 1 := by
  have h : (execs destroyEnd (start 1 1 1)).isSome = true := by decide +kernel
  obtain ⟨s, hs⟩ := Option.isSome_iff_exists.1 h
  rw [execs_runs] at hs
  have e1 : (execs destroyEnd (start 1 1 1)).map (fun s => (s.wrk, s.sub, s.wt)) = some ([.gone], [.idle], [.idle]) := by
    decide +kernel
  have e2 : (execs destroyEnd (start 1 1 1)).map (fun s => s.dst) = some .freed := by decide +kernel
  have e3 : (execs (destroyEnd.take 30) (start 1 1 1)).map (fun s => (s.dst, s.wrk, s.len)) =
      some (.loop, [.running 5 0], 1) := by decide +kernel
  rw [execs_runs] at e1 e2 e3
  rw [hs] at e1 e2
  simp only [Option.map_some, Option.some.injEq, _root_.Prod.mk.injEq] at e1 e2
  have sound : ∀ e s u, exec e s = some u → Step e s u := fun e s u h => exec_sound h
  refine ⟨Fair.finite sound hs, ?_, ?_, 30, ?_⟩
  · rw [Fair.finite_zero]; exact ⟨_, start_init 1 1 1, .refl _⟩
  · intro e he
    refine Fair.finite_fair sound hs (fun v hv => ?_)
    by_cases hd : e = .dst
    · subst hd
      cases hv with
      | destroy h => rw [e2] at h; simp at h
      | d_more h => rw [e2] at h; simp at h
      | d_post h => rw [e2] at h; simp at h
      | d_free h => rw [e2] at h; simp at h
    · refine rest_stuck (s := s) ?_ ?_ ?_ e v (by cases e <;> first | exact he | exact absurd rfl hd) hv
      · intro i x hx; rw [e1.1] at hx; have := List.mem_of_getElem? hx; right; simpa using this
      · intro i x hx; rw [e1.2.1] at hx; have := List.mem_of_getElem? hx; simpa using this
      · intro i x hx; rw [e1.2.2] at hx; have := List.mem_of_getElem? hx; simpa using this
  · show ((Fair.runs exec (destroyEnd.take 30) (start 1 1 1)).getD (start 1 1 1)).dst = _ ∧
      Running ((Fair.runs exec (destroyEnd.take 30) (start 1 1 1)).getD (start 1 1 1)) 0 ∧
      ((Fair.runs exec (destroyEnd.take 30) (start 1 1 1)).getD (start 1 1 1)).len = 1
    cases hc : Fair.runs exec (destroyEnd.take 30) (start 1 1 1) with
    | none => rw [hc] at e3; simp at e3
    | some t =>
      rw [hc] at e3
      simp only [Option.map_some, Option.some.injEq, _root_.Prod.mk.injEq] at e3
      exact ⟨e3.1, ⟨5, 0, by simp [e3.2.1]⟩, e3.2.2⟩

end Verif.Thpool
