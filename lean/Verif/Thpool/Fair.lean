import Verif.Thpool.Progress
import Verif.Common.Fair
/-! What happens in every fair infinite execution: lemmas. -/
namespace Verif.Thpool
variable {J : Type}
open Verif.Fair (Exec Enabled)

/-- where an own step can lead a worker -/
def Nx (s u : Sys J) : Wrk → Wrk → Prop
  | .boot, .test => True
  | .test, .enter => s.keep = true
  | .test, .leave => s.keep = false
  | .enter, .recheck | .woken, .recheck => s.v = true
  | .enter, .asleep | .woken, .asleep => s.v = false
  | .recheck, .inc => s.keep = true
  | .recheck, .leave => s.keep = false
  | .inc, .plock | .plock, .pread | .pread, .p1a _ | .pread, .p2a _ | .p1a _, .p1b _ | .p1b _, .p1c _ | .p2a _, .p2b _ => True
  | .pread, .punl _ _ => s.len = 0
  | .p1c _, .punl _ _ | .p2b _, .p2c _ _ => u.dequeued.length = s.dequeued.length + 1
  | .p2c jp id, .punl jp' id' => jp' = jp ∧ id' = id ∧ u.v = true
  | .punl jp id, .call jp' id' => jp' = jp ∧ id' = id
  | .call none _, .dec => True
  | .call (some p) id, .running p' id' => p' = p ∧ id' = id
  | .running _ id, .free _ _ => id ∈ u.done
  | .free _ _, .dec | .dec, .test | .leave, .left | .left, .gone => True
  | _, _ => False

theorem wmove {i : Nat} {s u : Sys J} (st : Step (.wrk i) s u) (hu : Inv u) :
    ∃ pc pc', s.wrk[i]? = some pc ∧ u.wrk[i]? = some pc' ∧ Nx s u pc pc' := by
  obtain ⟨L, q⟩ := hu.q
  have ub : u.wrk[i]? ≠ some .ub := fun h => q.wrk _ _ h
  cases st with
  | take e1 e2 => rcases e1 with e1 | e1 <;> exact ⟨_, _, e1, set_self e1, e2⟩
  | sleep e1 e2 => rcases e1 with e1 | e1 <;> exact ⟨_, _, e1, set_self e1, e2⟩
  | p2c e1 hp => exact ⟨_, _, e1, set_self (hp.wrk e1 (by simp)), rfl, rfl, by obtain ⟨W, rfl, _⟩ := hp.eq; rfl⟩
  | dec_last e1 e2 e3 hn => exact ⟨_, _, e1, set_self (by rw [hn.same.2.2]; exact e1), trivial⟩
  | p1c_ub e1 => exact absurd (set_self e1) ub
  | p2a_ub e1 => exact absurd (set_self e1) ub
  | p2b_ub e1 => exact absurd (set_self e1) ub
  | call_ub e1 => exact absurd (set_self e1) ub
  | free_ub e1 => exact absurd (set_self e1) ub
  | test_go e1 e2 => exact ⟨_, _, e1, set_self e1, e2⟩
  | test_end e1 e2 => exact ⟨_, _, e1, set_self e1, e2⟩
  | recheck_go e1 e2 => exact ⟨_, _, e1, set_self e1, e2⟩
  | recheck_end e1 e2 => exact ⟨_, _, e1, set_self e1, e2⟩
  | pread0 e1 e2 => exact ⟨_, _, e1, set_self e1, e2⟩
  | p1c e1 => exact ⟨_, _, e1, set_self e1, by simp [Nx, Sys.atW]⟩
  | p2b e1 => exact ⟨_, _, e1, set_self e1, by simp [Nx, Sys.atW]⟩
  | punl e1 => exact ⟨_, _, e1, set_self e1, rfl, rfl⟩
  | call e1 => exact ⟨_, _, e1, set_self e1, rfl, rfl⟩
  | ret e1 => exact ⟨_, _, e1, set_self e1, by simp [Nx, Sys.atW]⟩
  | boot e1 => exact ⟨_, _, e1, set_self e1, trivial⟩
  | inc e1 => exact ⟨_, _, e1, set_self e1, trivial⟩
  | plock e1 => exact ⟨_, _, e1, set_self e1, trivial⟩
  | pread1 e1 => exact ⟨_, _, e1, set_self e1, trivial⟩
  | pread2 e1 => exact ⟨_, _, e1, set_self e1, trivial⟩
  | p1a e1 => exact ⟨_, _, e1, set_self e1, trivial⟩
  | p1b e1 => exact ⟨_, _, e1, set_self e1, trivial⟩
  | p2a e1 => exact ⟨_, _, e1, set_self e1, trivial⟩
  | call_none e1 => exact ⟨_, _, e1, set_self e1, trivial⟩
  | free e1 => exact ⟨_, _, e1, set_self e1, trivial⟩
  | dec e1 => exact ⟨_, _, e1, set_self e1, trivial⟩
  | leave e1 => exact ⟨_, _, e1, set_self e1, trivial⟩
  | left e1 => exact ⟨_, _, e1, set_self e1, trivial⟩

/-- another thread's step leaves a worker where it is, unless it sleeps -/
theorem woth {e : Ev} {i : Nat} {s u : Sys J} {pc : Wrk} (st : Step e s u) (he : e ≠ .wrk i) (h : s.wrk[i]? = some pc) :
    u.wrk[i]? = some pc ∨ (pc = .asleep ∧ u.wrk[i]? = some .woken) := by
  have oth : ∀ {j : Nat} {x : Wrk} {l : List Wrk}, Ev.wrk j ≠ Ev.wrk i → l[i]? = some pc → (l.set j x)[i]? = some pc := by
    intro j x l hj hl
    rw [set_other]; exact hl
    rintro rfl; exact hj rfl
  have wk : ∀ {W : List Wrk}, Wakes s.wrk W → W[i]? = some pc ∨ (pc = .asleep ∧ W[i]? = some .woken) := by
    intro W hW
    have hl : i < W.length := by
      rw [hW.1]
      rcases Nat.lt_or_ge i s.wrk.length with h' | h'
      · exact h'
      · rw [List.getElem?_eq_none h'] at h; simp at h
    have h1 : W[i]? = some W[i] := List.getElem?_eq_getElem hl
    rcases hW.2 i _ _ h h1 with h2 | ⟨h2, h3⟩
    · left; rw [h1, h2]
    · right; exact ⟨h2, by rw [h1, h3]⟩
  cases st with
  | @p2c _ _ j _ _ e1 hp =>
    obtain ⟨W, rfl, hW, _⟩ := hp.eq
    rcases wk hW with h' | ⟨h1, h'⟩
    · exact .inl (oth he h')
    · refine .inr ⟨h1, ?_⟩
      show (W.set j _)[i]? = _
      rw [set_other]; exact h'
      rintro rfl; exact he rfl
  | s4 e1 hp =>
    obtain ⟨W, rfl, hW, _⟩ := hp.eq
    exact wk hW
  | dec_last e1 e2 e3 hn => obtain ⟨T, rfl, _⟩ := hn.eq; exact .inl (oth he h)
  | @spur_w _ j e1 =>
    by_cases hj : i = j
    · subst hj; rw [h] at e1; simp at e1; exact .inr ⟨e1, set_self h⟩
    · left; simp only [Sys.atW]; rw [set_other hj]; exact h
  | d_post e1 => exact wk (Wakes.map _)
  | _ => first | exact .inl h | exact .inl (oth he h)

/-- the pc of a worker waits for `thcount_lock` -/
def needT : Wrk → Bool
  | .boot | .inc | .dec | .leave => true
  | _ => false

/-- a worker that neither sleeps nor has ended can move, unless it waits for a mutex that is not free -/
theorem wenabled {s : Sys J} (h : Inv s) {i : Nat} {x : Wrk} (h1 : s.wrk[i]? = some x) (ha : x ≠ .asleep) (hg : x ≠ .gone)
    (ht : needT x = true → s.tc = none) (hp : x = .plock → s.rw = none) : Enabled Step (.wrk i) s := by
  obtain ⟨L, q⟩ := h.q
  have hq := q.wrk _ _ h1
  cases x with
  | asleep => exact absurd rfl ha
  | gone => exact absurd rfl hg
  | boot => exact ⟨_, .boot h1 (ht rfl)⟩
  | test =>
    cases hk : s.keep with
    | true => exact ⟨_, .test_go h1 hk⟩
    | false => exact ⟨_, .test_end h1 hk⟩
  | enter =>
    cases hk : s.v with
    | true => exact ⟨_, .take (.inl h1) hk⟩
    | false => exact ⟨_, .sleep (.inl h1) hk⟩
  | woken =>
    cases hk : s.v with
    | true => exact ⟨_, .take (.inr h1) hk⟩
    | false => exact ⟨_, .sleep (.inr h1) hk⟩
  | recheck =>
    cases hk : s.keep with
    | true => exact ⟨_, .recheck_go h1 hk⟩
    | false => exact ⟨_, .recheck_end h1 hk⟩
  | inc => exact ⟨_, .inc h1 (ht rfl)⟩
  | plock => exact ⟨_, .plock h1 (hp rfl)⟩
  | pread =>
    rcases Nat.lt_trichotomy s.len 1 with h0 | h0 | h0
    · exact ⟨_, .pread0 h1 (by omega)⟩
    · exact ⟨_, .pread1 h1 h0⟩
    · exact ⟨_, .pread2 h1 h0⟩
  | p1a jp => exact ⟨_, .p1a h1⟩
  | p1b jp => exact ⟨_, .p1b h1⟩
  | p1c jp =>
    obtain ⟨_, hl, hj, hsh⟩ := hq
    have h0 : L[0]? = some L[0] := List.getElem?_eq_getElem (by omega)
    obtain ⟨c, hc, _⟩ := hsh.cells 0 _ h0
    rw [h0] at hj; subst hj
    exact ⟨_, .p1c h1 hc⟩
  | p2a jp =>
    obtain ⟨_, hl, hj, hsh⟩ := hq
    have h0 : L[0]? = some L[0] := List.getElem?_eq_getElem (by omega)
    obtain ⟨c, hc, _⟩ := hsh.cells 0 _ h0
    rw [h0] at hj; subst hj
    exact ⟨_, .p2a h1 hc⟩
  | p2b jp =>
    obtain ⟨_, hl, hj, hsh⟩ := hq
    have h0 : L[0]? = some L[0] := List.getElem?_eq_getElem (by omega)
    obtain ⟨c, hc, _⟩ := hsh.cells 0 _ h0
    rw [h0] at hj; subst hj
    exact ⟨_, .p2b h1 hc⟩
  | p2c jp id => obtain ⟨u, hu⟩ := Post.exists s; exact ⟨_, .p2c h1 hu⟩
  | punl jp id => exact ⟨_, .punl h1⟩
  | call jp id =>
    cases jp with
    | none => exact ⟨_, .call_none h1⟩
    | some p => obtain ⟨c, hc, _⟩ := hq p rfl; exact ⟨_, .call h1 hc⟩
  | running p id => exact ⟨_, .ret h1⟩
  | free p id => obtain ⟨c, hc, _⟩ := hq p rfl; exact ⟨_, .free h1 hc⟩
  | dec =>
    by_cases h0 : s.working - 1 = 0
    · obtain ⟨u, hu⟩ := Notify.exists { s with working := s.working - 1 }
      exact ⟨_, .dec_last h1 (ht rfl) h0 hu⟩
    · exact ⟨_, .dec h1 (ht rfl) h0⟩
  | leave => exact ⟨_, .leave h1 (ht rfl)⟩
  | left => exact ⟨_, .left h1⟩
  | ub => exact hq.elim

/-- the same for a thread inside `thpool_add_work` -/
theorem senabled {s : Sys J} (h : Inv s) {t : Nat} {x : Sub} (h1 : s.sub[t]? = some x) (hi : x ≠ .idle)
    (hp : ∀ p, x = .slock p → s.rw = none) : Enabled Step (.sub t) s := by
  obtain ⟨L, q⟩ := h.q
  have hq := q.sub _ _ h1
  cases x with
  | idle => exact absurd rfl hi
  | slock p => exact ⟨_, .slock h1 (hp p rfl)⟩
  | s0 p => obtain ⟨_, ⟨c, hc, _⟩, _⟩ := hq; exact ⟨_, .s0 h1 hc⟩
  | s1 p =>
    by_cases h0 : s.len = 0
    · exact ⟨_, .s1_empty h1 h0⟩
    · have hl : s.len = L.length := q.base.len
      have h0 : L[L.length - 1]? = some L[L.length - 1] := List.getElem?_eq_getElem (by omega)
      obtain ⟨c, hc, _⟩ := hq.2.2.cells _ _ h0
      have hr := hq.2.2.rear
      rw [List.getLast?_eq_getElem?] at hr
      exact ⟨_, .s1 h1 (by omega) (hr.trans h0) hc⟩
  | s2 p => exact ⟨_, .s2 h1⟩
  | s3 p => obtain ⟨_, ⟨c, hc, _⟩, _⟩ := hq; exact ⟨_, .s3 h1 hc⟩
  | s4 id => obtain ⟨u, hu⟩ := Post.exists s; exact ⟨_, .s4 h1 hu⟩
  | s5 id => exact ⟨_, .s5 h1⟩
  | ub => exact hq.elim

/-- a thread in `thpool_wait` that holds `thcount_lock` can move -/
theorem tenabled {s : Sys J} {t : Nat} {x : Wt} (h1 : s.wt[t]? = some x) (hx : TSec x = true) : Enabled Step (.wt t) s := by
  cases x with
  | t0 n =>
    by_cases h0 : s.len = 0
    · exact ⟨_, .t0 h1 h0⟩
    · exact ⟨_, .t0_wait h1 h0⟩
  | t1 n =>
    by_cases h0 : s.working = 0
    · exact ⟨_, .t1 h1 h0⟩
    · exact ⟨_, .t1_wait h1 h0⟩
  | tw n => exact ⟨_, .tw h1⟩
  | tunl n => exact ⟨_, .tunl h1⟩
  | _ => simp [TSec] at hx

/-! ### ranks -/

/-- how far a worker is from its next look at the semaphore -/
def rk : Wrk → Nat
  | .gone => 0 | .left => 1 | .leave => 2 | .asleep => 0 | .enter => 1 | .woken => 1 | .test => 3 | .boot => 4
  | .dec => 5 | .free _ _ => 6 | .running _ _ => 7 | .call _ _ => 8 | .punl _ _ => 9
  | .p2c _ _ => 10 | .p2b _ => 11 | .p2a _ => 12 | .p1c _ => 11 | .p1b _ => 12 | .p1a _ => 13
  | .pread => 14 | .plock => 15 | .inc => 16 | .recheck => 17 | .ub => 0

def rkW (i : Nat) (s : Sys J) : Nat := match s.wrk[i]? with | some x => rk x | none => 0
def rkS (t : Nat) (s : Sys J) : Nat := match s.sub[t]? with | some x => sr x | none => 0
def rkT (t : Nat) (s : Sys J) : Nat := match s.wt[t]? with | some x => tr x | none => 0

theorem rkW_eq {i : Nat} {s : Sys J} {x : Wrk} (h : s.wrk[i]? = some x) : rkW i s = rk x := by simp [rkW, h]

theorem Nx.rk {s u : Sys J} {pc pc' : Wrk} (h : Nx s u pc pc') (ht : pc' ≠ .recheck) : rk pc' < rk pc := by
  cases pc <;> cases pc' <;> simp_all [Nx, Thpool.rk]

/-- an own step that does not take the semaphore lowers the rank -/
theorem rkW_own {i : Nat} {s u : Sys J} (st : Step (.wrk i) s u) (hu : Inv u) (ht : u.wrk[i]? ≠ some .recheck) :
    rkW i u < rkW i s := by
  obtain ⟨pc, pc', h1, h2, h3⟩ := wmove st hu
  rw [rkW_eq h1, rkW_eq h2]
  exact h3.rk fun e => ht (by rw [h2, e])

theorem rkW_oth {e : Ev} {i : Nat} {s u : Sys J} (st : Step e s u) (he : e ≠ .wrk i) {pc : Wrk} (h1 : s.wrk[i]? = some pc)
    (ha : pc ≠ .asleep) : u.wrk[i]? = some pc ∧ rkW i u ≤ rkW i s := by
  rcases woth st he h1 with h | ⟨h, _⟩
  · exact ⟨h, by rw [rkW_eq h1, rkW_eq h]; exact Nat.le_refl _⟩
  · exact absurd h ha

theorem smove {e : Ev} {t : Nat} {s u : Sys J} (st : Step e s u) {x : Sub} (h1 : s.sub[t]? = some x) (hx : x ≠ .idle) :
    (e = .sub t → rkS t u < rkS t s) ∧ (e ≠ .sub t → u.sub[t]? = some x) := by
  have oth : ∀ {j : Nat} {y : Sub} {l : List Sub}, Ev.sub j ≠ Ev.sub t → l[t]? = some x → (l.set j y)[t]? = some x := by
    intro j y l hj hl
    rw [set_other]; exact hl
    rintro rfl; exact hj rfl
  have own : ∀ {y z : Sub} {v : Sys J} , s.sub[t]? = some y → v.sub = s.sub.set t z → sr z < sr y → rkS t v < rkS t s := by
    intro y z v hy hv hz
    have : v.sub[t]? = some z := by rw [hv]; exact set_self hy
    simp only [rkS, hy, this]; exact hz
  cases st with
  | @add _ j p jj e1 =>
    refine ⟨by simp, fun _ => ?_⟩
    have : t ≠ j := by rintro rfl; rw [h1] at e1; simp at e1; exact hx e1
    simp only [Sys.atS]; rw [set_other this]; exact h1
  | p2c e1 hp => exact ⟨by simp, fun _ => by rw [← hp.q.2] at h1; exact h1⟩
  | @s4 _ _ j id e1 hp =>
    refine ⟨fun he => ?_, fun he => ?_⟩
    · simp at he; subst he
      exact own e1 (by simp only [Sys.atS]; rw [hp.q.2]) (by simp [sr])
    · simp only [Sys.atS]; rw [hp.q.2]; exact oth he h1
  | dec_last e1 e2 e3 hn => exact ⟨by simp, fun _ => by rw [← h1]; exact congrArg (·[t]?) hn.same.2.1⟩
  | @slock _ j p e1 => exact ⟨fun he => by simp at he; subst he; exact own e1 rfl (by simp [sr]), fun he => oth he h1⟩
  | @s0 _ j p c e1 => exact ⟨fun he => by simp at he; subst he; exact own e1 rfl (by simp [sr]), fun he => oth he h1⟩
  | @s0_ub _ j p e1 => exact ⟨fun he => by simp at he; subst he; exact own e1 rfl (by simp [sr]), fun he => oth he h1⟩
  | @s1_empty _ j p e1 => exact ⟨fun he => by simp at he; subst he; exact own e1 rfl (by simp [sr]), fun he => oth he h1⟩
  | @s1 _ j p r c e1 => exact ⟨fun he => by simp at he; subst he; exact own e1 rfl (by simp [sr]), fun he => oth he h1⟩
  | @s1_ub _ j p e1 => exact ⟨fun he => by simp at he; subst he; exact own e1 rfl (by simp [sr]), fun he => oth he h1⟩
  | @s2 _ j p e1 => exact ⟨fun he => by simp at he; subst he; exact own e1 rfl (by simp [sr]), fun he => oth he h1⟩
  | @s3 _ j p c e1 => exact ⟨fun he => by simp at he; subst he; exact own e1 rfl (by simp [sr]), fun he => oth he h1⟩
  | @s3_ub _ j p e1 => exact ⟨fun he => by simp at he; subst he; exact own e1 rfl (by simp [sr]), fun he => oth he h1⟩
  | @s5 _ j id e1 => exact ⟨fun he => by simp at he; subst he; exact own e1 rfl (by simp [sr]), fun he => oth he h1⟩
  | _ => exact ⟨by simp, fun _ => h1⟩

theorem tmove {e : Ev} {t : Nat} {s u : Sys J} (st : Step e s u) {x : Wt} (h1 : s.wt[t]? = some x) (hx : TSec x = true) :
    (e = .wt t → rkT t u < rkT t s) ∧ (e ≠ .wt t → u.wt[t]? = some x) := by
  have oth : ∀ {j : Nat} {y : Wt} {l : List Wt}, Ev.wt j ≠ Ev.wt t → l[t]? = some x → (l.set j y)[t]? = some x := by
    intro j y l hj hl
    rw [set_other]; exact hl
    rintro rfl; exact hj rfl
  have own : ∀ {y z : Wt} {v : Sys J} , s.wt[t]? = some y → v.wt = s.wt.set t z → tr z < tr y → rkT t v < rkT t s := by
    intro y z v hy hv hz
    have : v.wt[t]? = some z := by rw [hv]; exact set_self hy
    simp only [rkT, hy, this]; exact hz
  have ne : ∀ {j : Nat} {y z : Wt}, s.wt[j]? = some y → TSec y = false → (s.wt.set j z)[t]? = some x := by
    intro j y z hy hb
    rw [set_other]; exact h1
    rintro rfl; rw [h1] at hy; simp at hy; subst hy; rw [hx] at hb; simp at hb
  cases st with
  | p2c e1 hp => obtain ⟨W, rfl, _⟩ := hp.eq; exact ⟨by simp, fun _ => h1⟩
  | s4 e1 hp => obtain ⟨W, rfl, _⟩ := hp.eq; exact ⟨by simp, fun _ => h1⟩
  | dec_last e1 e2 e3 hn =>
    obtain ⟨T, rfl, hT⟩ := hn.eq
    refine ⟨by simp, fun _ => ?_⟩
    rcases hT with ⟨k, n, hk, rfl⟩ | ⟨_, rfl⟩
    · exact ne hk rfl
    · exact h1
  | @wait _ j e1 => exact ⟨by simp, fun _ => ne e1 rfl⟩
  | @spur_t _ j n e1 => exact ⟨by simp, fun _ => ne e1 rfl⟩
  | @tlock _ j p e1 => exact ⟨fun he => by simp at he; subst he; exact own e1 rfl (by simp [tr]), fun he => oth he h1⟩
  | @t0_wait _ j p e1 => exact ⟨fun he => by simp at he; subst he; exact own e1 rfl (by simp [tr]), fun he => oth he h1⟩
  | @t0 _ j p e1 => exact ⟨fun he => by simp at he; subst he; exact own e1 rfl (by simp [tr]), fun he => oth he h1⟩
  | @t1_wait _ j p e1 => exact ⟨fun he => by simp at he; subst he; exact own e1 rfl (by simp [tr]), fun he => oth he h1⟩
  | @t1 _ j p e1 => exact ⟨fun he => by simp at he; subst he; exact own e1 rfl (by simp [tr]), fun he => oth he h1⟩
  | @tw _ j p e1 => exact ⟨fun he => by simp at he; subst he; exact own e1 rfl (by simp [tr]), fun he => oth he h1⟩
  | @twoken _ j p e1 => exact ⟨fun he => by simp at he; subst he; exact own e1 rfl (by simp [tr]), fun he => oth he h1⟩
  | @tunl _ j p e1 => exact ⟨fun he => by simp at he; subst he; exact own e1 rfl (by simp [tr]), fun he => oth he h1⟩
  | _ => exact ⟨by simp, fun _ => h1⟩

/-! ### who holds the mutexes, the semaphore, what only grows -/

theorem rw_step {e : Ev} {s u : Sys J} (st : Step e s u) {w : Who} (h : s.rw = some w) : u.rw = some w ∨ u.rw = none := by
  cases st with
  | p2c e1 hp => obtain ⟨W, rfl, _⟩ := hp.eq; exact .inl h
  | s4 e1 hp => obtain ⟨W, rfl, _⟩ := hp.eq; exact .inl h
  | dec_last e1 e2 e3 hn => obtain ⟨T, rfl, hT⟩ := hn.eq; exact .inl h
  | plock e1 e2 => rw [h] at e2; simp at e2
  | slock e1 e2 => rw [h] at e2; simp at e2
  | punl => exact .inr rfl
  | s5 => exact .inr rfl
  | _ => exact .inl h

theorem tc_step {e : Ev} {s u : Sys J} (st : Step e s u) {w : Cnt} (h : s.tc = some w) : u.tc = some w ∨ u.tc = none := by
  cases st with
  | p2c e1 hp => obtain ⟨W, rfl, _⟩ := hp.eq; exact .inl h
  | s4 e1 hp => obtain ⟨W, rfl, _⟩ := hp.eq; exact .inl h
  | dec_last e1 e2 e3 hn => obtain ⟨T, rfl, hT⟩ := hn.eq; exact .inl h
  | leave e1 e2 => rw [h] at e2; simp at e2
  | tlock e1 e2 => rw [h] at e2; simp at e2
  | twoken e1 e2 => rw [h] at e2; simp at e2
  | left => exact .inr rfl
  | tw => exact .inr rfl
  | tunl => exact .inr rfl
  | _ => exact .inl h

/-- a set semaphore stays set until a worker takes it -/
theorem v_step {e : Ev} {s u : Sys J} (st : Step e s u) (h : s.v = true) :
    u.v = true ∨ ∃ i : Nat, e = .wrk i ∧ u.wrk[i]? = some .recheck := by
  cases st with
  | p2c e1 hp => obtain ⟨W, rfl, _⟩ := hp.eq; exact .inl rfl
  | s4 e1 hp => obtain ⟨W, rfl, _⟩ := hp.eq; exact .inl rfl
  | dec_last e1 e2 e3 hn => obtain ⟨T, rfl, hT⟩ := hn.eq; exact .inl h
  | @take _ i e1 => rcases e1 with e1 | e1 <;> exact .inr ⟨i, rfl, set_self e1⟩
  | d_post => exact .inl rfl
  | _ => exact .inl h

theorem grows {e : Ev} {s u : Sys J} (st : Step e s u) : s.dequeued.length ≤ u.dequeued.length ∧
    s.added.length ≤ u.added.length ∧ ∀ id, id ∈ s.done → id ∈ u.done := by
  cases st with
  | p2c e1 hp => obtain ⟨W, rfl, _⟩ := hp.eq; exact ⟨Nat.le_refl _, Nat.le_refl _, fun _ h => h⟩
  | s4 e1 hp => obtain ⟨W, rfl, _⟩ := hp.eq; exact ⟨Nat.le_refl _, Nat.le_refl _, fun _ h => h⟩
  | dec_last e1 e2 e3 hn => obtain ⟨T, rfl, hT⟩ := hn.eq; exact ⟨Nat.le_refl _, Nat.le_refl _, fun _ h => h⟩
  | p1c => exact ⟨by simp [Sys.atW], Nat.le_refl _, fun _ h => h⟩
  | p2b => exact ⟨by simp [Sys.atW], Nat.le_refl _, fun _ h => h⟩
  | s3 => exact ⟨Nat.le_refl _, by simp [Sys.atS], fun _ h => h⟩
  | ret => exact ⟨Nat.le_refl _, Nat.le_refl _, fun _ h => by simp [Sys.atW, h]⟩
  | _ => exact ⟨Nat.le_refl _, Nat.le_refl _, fun _ h => h⟩

end Verif.Thpool
