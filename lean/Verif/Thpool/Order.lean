import Verif.Thpool.Progress
/-! With one worker, jobs are executed one after the other in the order in which they were added. -/
namespace Verif.Thpool
variable {J : Type}

theorem length_step {e : Ev} {s u : Sys J} (st : Step e s u) : u.wrk.length = s.wrk.length ∧ u.wt.length = s.wt.length := by
  cases st with
  | p2c _ hp => obtain ⟨W, rfl, h, _⟩ := hp.eq; exact ⟨by simp [Sys.atW, h.1], rfl⟩
  | s4 _ hp => obtain ⟨W, rfl, h, _⟩ := hp.eq; exact ⟨h.1, rfl⟩
  | dec_last _ _ _ hn =>
    obtain ⟨T, rfl, h⟩ := hn.eq
    refine ⟨by simp [Sys.atW], ?_⟩
    rcases h with ⟨_, _, _, rfl⟩ | ⟨_, rfl⟩ <;> simp [Sys.atW]
  | d_post => exact ⟨by simp, rfl⟩
  | _ => exact ⟨by simp [Sys.atW, Sys.atS, Sys.atT], by simp [Sys.atW, Sys.atS, Sys.atT]⟩

/-- one worker: the jobs called so far are the first ones, and at most the last one taken is not yet called;
likewise for the jobs finished -/
structure Solo (s : Sys J) : Prop where
  calls : s.calls.map (·.1) = List.range s.calls.length
  deq : ∀ pc, s.wrk[0]? = some pc → s.dequeued.length = s.calls.length + (if (pre pc).isSome then 1 else 0) ∧
    (∀ id, pre pc = some id → id = s.calls.length)
  done : s.done = List.range s.done.length
  fin : ∀ pc, s.wrk[0]? = some pc → s.calls.length = s.done.length + (if (run pc).isSome then 1 else 0) ∧
    (∀ id, run pc = some id → id = s.done.length)

theorem Solo.same {s u : Sys J} (h : Solo s) (h1 : u.dequeued = s.dequeued) (h2 : u.calls = s.calls) (h3 : u.done = s.done)
    (hp : ∀ pc, u.wrk[0]? = some pc → ∃ pc', s.wrk[0]? = some pc' ∧ pre pc = pre pc' ∧ run pc = run pc') : Solo u := by
  constructor
  · rw [h2]; exact h.calls
  · intro pc hpc; obtain ⟨pc', a, b, _⟩ := hp pc hpc; rw [h1, h2, b]; exact h.deq pc' a
  · rw [h3]; exact h.done
  · intro pc hpc; obtain ⟨pc', a, _, b⟩ := hp pc hpc; rw [h2, h3, b]; exact h.fin pc' a

theorem solo_idx {l : List Wrk} {i : Nat} {x : Wrk} (h1 : l.length = 1) (h : l[i]? = some x) : i = 0 := by
  rcases Nat.lt_or_ge i l.length with h' | h'
  · omega
  · rw [List.getElem?_eq_none h'] at h; simp at h

theorem Solo.move {s u : Sys J} (h : Solo s) {i : Nat} {pc pc' : Wrk} (hp : s.wrk[i]? = some pc)
    (hu : u.wrk = s.wrk.set i pc') (h1 : u.dequeued = s.dequeued) (h2 : u.calls = s.calls) (h3 : u.done = s.done)
    (hpre : pre pc' = pre pc) (hrun : run pc' = run pc) : Solo u := by
  refine h.same h1 h2 h3 ?_
  intro x hx
  rw [hu] at hx
  rcases get_set hx with ⟨rfl, rfl⟩ | ⟨_, hx⟩
  · exact ⟨pc, hp, hpre, hrun⟩
  · exact ⟨x, hx, rfl, rfl⟩

theorem Solo.step {e : Ev} {s u : Sys J} {L : List Nat} (st : Step e s u) (q : QInv s L) (hn : s.wrk.length = 1) (h : Solo s) :
    Solo u := by
  obtain ⟨L', q'⟩ := q.step st
  have wk : ∀ {W : List Wrk}, Wakes s.wrk W → ∀ pc, W[0]? = some pc → ∃ pc', s.wrk[0]? = some pc' ∧ pre pc = pre pc' ∧ run pc = run pc' := by
    intro W hW pc hpc
    rcases hW.back hpc with h | ⟨rfl, h⟩
    · exact ⟨_, h, rfl, rfl⟩
    · exact ⟨_, h, rfl, rfl⟩
  cases st with
  | take e1 => rcases e1 with e1 | e1 <;> exact h.move e1 rfl rfl rfl rfl rfl rfl
  | sleep e1 => rcases e1 with e1 | e1 <;> exact h.move e1 rfl rfl rfl rfl rfl rfl
  | @pread0 _ i e1 e2 =>
    refine h.move e1 rfl rfl rfl rfl ?_ rfl
    have hq := q.wrk _ _ e1
    have hf : s.front = L[0]? := hq.2.front
    have hl : s.len = L.length := q.base.len
    have : L = [] := List.eq_nil_of_length_eq_zero (by omega)
    rw [hf, this]; rfl
  | @p1c _ i p c e1 e2 =>
    have hi := solo_idx hn e1; subst hi
    have h0 := h.deq _ e1
    have h1 := h.fin _ e1
    simp [pre, run] at h0 h1
    refine ⟨h.calls, ?_, h.done, ?_⟩
    · intro pc hpc
      rcases get_set hpc with ⟨_, rfl⟩ | ⟨h, _⟩
      · refine ⟨by simp [pre, Sys.atW, h0], fun id hid => ?_⟩
        simp [pre, h0] at hid; exact hid.symm
      · exact absurd rfl h
    · intro pc hpc
      rcases get_set hpc with ⟨_, rfl⟩ | ⟨h, _⟩
      · exact ⟨by simp [run, Sys.atW, h1], by simp [run]⟩
      · exact absurd rfl h
  | @p2b _ i p c e1 e2 =>
    have hi := solo_idx hn e1; subst hi
    have h0 := h.deq _ e1
    have h1 := h.fin _ e1
    simp [pre, run] at h0 h1
    refine ⟨h.calls, ?_, h.done, ?_⟩
    · intro pc hpc
      rcases get_set hpc with ⟨_, rfl⟩ | ⟨h, _⟩
      · refine ⟨by simp [pre, Sys.atW, h0], fun id hid => ?_⟩
        simp [pre, h0] at hid; exact hid.symm
      · exact absurd rfl h
    · intro pc hpc
      rcases get_set hpc with ⟨_, rfl⟩ | ⟨h, _⟩
      · exact ⟨by simp [run, Sys.atW, h1], by simp [run]⟩
      · exact absurd rfl h
  | @p2c _ _ i jp id e1 hp =>
    have hi := solo_idx hn e1; subst hi
    obtain ⟨W, rfl, hW, _⟩ := hp.eq
    refine h.same rfl rfl rfl ?_
    intro x hx
    rcases get_set hx with ⟨_, rfl⟩ | ⟨h, _⟩
    · exact ⟨_, e1, by cases jp <;> rfl, rfl⟩
    · exact absurd rfl h
  | @punl _ i jp id e1 => exact h.move e1 rfl rfl rfl rfl (by cases jp <;> rfl) rfl
  | @call _ i p id c e1 e2 =>
    have hi := solo_idx hn e1; subst hi
    have h0 := h.deq _ e1
    have h1 := h.fin _ e1
    simp [pre, run] at h0 h1
    refine ⟨?_, ?_, h.done, ?_⟩
    · simp only [Sys.atW, List.map_append, List.map_cons, List.map_nil, List.length_append, List.length_singleton]
      rw [h.calls, List.range_succ, h0.2]
    · intro pc hpc
      rcases get_set hpc with ⟨_, rfl⟩ | ⟨h, _⟩
      · exact ⟨by simp [pre, Sys.atW, h0.1], by simp [pre]⟩
      · exact absurd rfl h
    · intro pc hpc
      rcases get_set hpc with ⟨_, rfl⟩ | ⟨h, _⟩
      · refine ⟨by simp [run, Sys.atW, h1], fun id' hid => ?_⟩
        simp only [run, Option.some.injEq] at hid
        simp only [Sys.atW]; omega
      · exact absurd rfl h
  | @ret _ i p id e1 =>
    have hi := solo_idx hn e1; subst hi
    have h0 := h.deq _ e1
    have h1 := h.fin _ e1
    simp [pre, run] at h0 h1
    refine ⟨h.calls, ?_, ?_, ?_⟩
    · intro pc hpc
      rcases get_set hpc with ⟨_, rfl⟩ | ⟨h, _⟩
      · exact ⟨by simp [pre, Sys.atW, h0], by simp [pre]⟩
      · exact absurd rfl h
    · simp only [Sys.atW, List.length_append, List.length_singleton]
      rw [List.range_succ, ← h.done, h1.2]
    · intro pc hpc
      rcases get_set hpc with ⟨_, rfl⟩ | ⟨h, _⟩
      · exact ⟨by simp [run, Sys.atW, h1.1], by simp [run]⟩
      · exact absurd rfl h
  | dec_last e1 e2 e3 hn =>
    obtain ⟨T, rfl, _⟩ := hn.eq
    exact h.move e1 rfl rfl rfl rfl rfl rfl
  | s4 e1 hp =>
    obtain ⟨W, rfl, hW, _⟩ := hp.eq
    exact h.same rfl rfl rfl (wk hW)
  | d_post => exact h.same rfl rfl rfl (wk (.map _))
  | p1c_ub e1 => exact (q'.wrk _ _ (set_self e1)).elim
  | p2a_ub e1 => exact (q'.wrk _ _ (set_self e1)).elim
  | p2b_ub e1 => exact (q'.wrk _ _ (set_self e1)).elim
  | call_ub e1 => exact (q'.wrk _ _ (set_self e1)).elim
  | free_ub e1 => exact (q'.wrk _ _ (set_self e1)).elim
  | _ =>
    first
    | exact h.same rfl rfl rfl (fun pc h => ⟨pc, h, rfl, rfl⟩)
    | exact h.move (by assumption) rfl rfl rfl rfl (by rfl) (by rfl)

theorem Solo.init {s : Sys J} (h : Init s) : Solo s := by
  obtain ⟨_, _, _, _, _, _, _, _, _, _, _, hb, _, _, _, ha, hr, hd, hc, hdn⟩ := h
  refine ⟨by rw [hc]; rfl, ?_, by rw [hdn]; rfl, ?_⟩
  · intro pc hp; rw [hb _ _ hp, hd, hc]; exact ⟨rfl, by simp [pre]⟩
  · intro pc hp; rw [hb _ _ hp, hc, hdn]; exact ⟨rfl, by simp [run]⟩

theorem Reach.solo {s : Sys J} (h : Reach s) (hn : s.wrk.length = 1) : Solo s := by
  obtain ⟨i, hi, hs⟩ := h
  have : Inv s ∧ (s.wrk.length = 1 → Solo s) := by
    refine Steps.keeps (P := fun x => Inv x ∧ (x.wrk.length = 1 → Solo x)) ?_ hs ⟨.init hi, fun _ => .init hi⟩
    intro e a b _ st ⟨h1, h2⟩
    obtain ⟨L, q⟩ := h1.q
    refine ⟨h1.step st, fun h => ?_⟩
    have := (length_step st).1
    exact Solo.step st q (by omega) (h2 (by omega))
  exact this.2 hn

end Verif.Thpool
