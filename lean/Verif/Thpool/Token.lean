import Verif.Thpool.Jobs
/-! No wake-up is lost; what `thpool_wait` has seen. -/
namespace Verif.Thpool
variable {J : Type}

/-- has consumed a wake-up and not yet looked at the queue, or still has to pass it on -/
def carr : Wrk → Bool
  | .recheck | .inc | .plock | .pread | .p1a _ | .p1b _ | .p1c _ | .p2a _ | .p2b _ | .p2c _ _ => true
  | _ => false

structure TInv (s : Sys J) : Prop where
  tok : s.keep = true → 0 < s.len → s.v = true ∨ (∃ (i : Nat) (pc : Wrk), s.wrk[i]? = some pc ∧ carr pc = true) ∨
    (∃ (t id : Nat), s.sub[t]? = some (.s4 id))
  wake : s.v = true → (∃ i : Nat, s.wrk[i]? = some .woken) ∨ ∀ i : Nat, s.wrk[i]? ≠ some .asleep

theorem wake_set {l : List Wrk} (h : (∃ i : Nat, l[i]? = some .woken) ∨ ∀ i : Nat, l[i]? ≠ some .asleep) {i : Nat} {pc pc' : Wrk}
    (hp : l[i]? = some pc) (h1 : pc ≠ .woken) (h2 : pc' ≠ .asleep) :
    (∃ k : Nat, (l.set i pc')[k]? = some .woken) ∨ ∀ k : Nat, (l.set i pc')[k]? ≠ some .asleep := by
  rcases h with ⟨k, c⟩ | c
  · left
    refine ⟨k, ?_⟩
    rw [set_other]; exact c
    rintro rfl; rw [hp] at c; simp at c; exact h1 c
  · right
    intro k hk
    rcases get_set hk with ⟨_, h⟩ | ⟨_, h⟩
    · exact h2 h.symm
    · exact c k h

/-- a worker moves and keeps the wake-up -/
theorem TInv.move {s u : Sys J} (h : TInv s) {i : Nat} {pc pc' : Wrk} (hp : s.wrk[i]? = some pc)
    (hw : u.wrk = s.wrk.set i pc') (hs : u.sub = s.sub) (hk : u.keep = s.keep) (hl : u.len = s.len) (hv : u.v = s.v)
    (hc : s.keep = true → 0 < s.len → carr pc = true → carr pc' = true) (h1 : pc ≠ .woken) (h2 : pc' ≠ .asleep) : TInv u := by
  constructor
  · rw [hk, hl, hv, hs, hw]
    intro a b
    rcases h.tok a b with h | ⟨k, x, c, d⟩ | h
    · exact .inl h
    · by_cases e : k = i
      · subst e; rw [hp] at c; simp at c; subst c
        exact .inr (.inl ⟨k, pc', set_self hp, hc a b d⟩)
      · exact .inr (.inl ⟨k, x, by rw [set_other e]; exact c, d⟩)
    · exact .inr (.inr h)
  · rw [hv, hw]
    intro a
    rcases h.wake a with ⟨k, c⟩ | c
    · left
      refine ⟨k, ?_⟩
      rw [set_other]; exact c
      rintro rfl; rw [hp] at c; simp at c; exact h1 c
    · right
      intro k hk
      rcases get_set hk with ⟨_, h⟩ | ⟨_, h⟩
      · exact h2 h.symm
      · exact c k h

theorem TInv.same {s u : Sys J} (h : TInv s) (hw : u.wrk = s.wrk) (hs : u.sub = s.sub ∨ ∃ (t : Nat) (a b : Sub), s.sub[t]? = some a ∧ u.sub = s.sub.set t b ∧ ∀ id, a ≠ .s4 id) (hk : u.keep = s.keep) (hl : u.len = s.len) (hv : u.v = s.v) : TInv u := by
  constructor
  · rw [hk, hl, hv, hw]
    intro a b
    rcases h.tok a b with h | h | ⟨t, id, h⟩
    · exact .inl h
    · exact .inr (.inl h)
    · right; right
      rcases hs with hs | ⟨t', x, y, c, d, e⟩
      · exact ⟨t, id, by rw [hs]; exact h⟩
      · refine ⟨t, id, ?_⟩
        rw [d, set_other]; exact h
        rintro rfl; rw [h] at c; simp at c; exact e id c.symm
  · rw [hv, hw]; exact h.wake

theorem TInv.step {e : Ev} {s u : Sys J} {L : List Nat} (st : Step e s u) (q : QInv s L) (h : TInv s) : TInv u := by
  obtain ⟨L', q'⟩ := q.step st
  cases st with
  | @take _ i e1 e2 =>
    have e1' : ∃ a, s.wrk[i]? = some a := by rcases e1 with e1 | e1 <;> exact ⟨_, e1⟩
    obtain ⟨a, ha⟩ := e1'
    exact ⟨fun _ _ => .inr (.inl ⟨i, .recheck, set_self ha, rfl⟩), fun h => by simp [Sys.atW] at h⟩
  | @sleep _ i e1 e2 =>
    constructor
    · intro a b
      rcases h.tok a b with h | ⟨k, x, c, d⟩ | h
      · exact .inl h
      · refine .inr (.inl ⟨k, x, ?_, d⟩)
        simp only [Sys.atW]; rw [set_other]; exact c
        rintro rfl
        rcases e1 with e1 | e1 <;> (rw [c] at e1; simp at e1; subst e1; simp [carr] at d)
      · exact .inr (.inr h)
    · intro hv; rw [show s.v = true from hv] at e2; simp at e2
  | @p1c _ i p c e1 e2 =>
    refine ⟨fun _ h => by simp [Sys.atW] at h, fun hv => ?_⟩
    exact wake_set (h.wake hv) e1 (by simp) (by simp)
  | @p2b _ i p c e1 e2 =>
    refine ⟨fun _ _ => .inr (.inl ⟨i, _, set_self e1, rfl⟩), fun hv => ?_⟩
    exact wake_set (h.wake hv) e1 (by simp) (by simp)
  | @p2c _ _ i jp id e1 hp =>
    obtain ⟨W, rfl, hW, hw⟩ := hp.eq
    have hg := hW.get e1 (by simp)
    refine ⟨fun _ _ => .inl rfl, fun hv => ?_⟩
    exact wake_set hw hg (by simp) (by simp)
  | s4 e1 hp =>
    obtain ⟨W, rfl, hW, hw⟩ := hp.eq
    exact ⟨fun _ _ => .inl rfl, fun _ => hw⟩
  | @s3 _ t p c e1 e2 => exact ⟨fun _ _ => .inr (.inr ⟨t, _, set_self e1⟩), h.wake⟩
  | dec_last e1 e2 e3 hn =>
    obtain ⟨T, rfl, _⟩ := hn.eq
    exact h.move e1 rfl rfl rfl rfl rfl (fun _ _ h => by simp [carr] at h) (by simp) (by simp)
  | pread0 e1 e2 => exact h.move e1 rfl rfl rfl rfl rfl (fun _ h _ => by omega) (by simp) (by simp)
  | recheck_end e1 e2 => exact h.move e1 rfl rfl rfl rfl rfl (fun h _ _ => by simp [h] at e2) (by simp) (by simp)
  | spur_w e1 =>
    constructor
    · intro a b
      rcases h.tok a b with h | ⟨k, x, c, d⟩ | h
      · exact .inl h
      · refine .inr (.inl ⟨k, x, ?_, d⟩)
        simp only [Sys.atW]; rw [set_other]; exact c
        rintro rfl; rw [c] at e1; simp at e1; subst e1; simp [carr] at d
      · exact .inr (.inr h)
    · intro hv; exact .inl ⟨_, set_self e1⟩
  | d_post =>
    refine ⟨fun _ _ => .inl rfl, fun _ => .inr ?_⟩
    intro i hi
    simp only [List.getElem?_map, Option.map_eq_some_iff] at hi
    obtain ⟨a, _, h⟩ := hi
    split at h
    · simp at h
    · contradiction
  | destroy => exact ⟨fun h => by simp at h, h.wake⟩
  | p1c_ub e1 => exact (q'.wrk _ _ (set_self e1)).elim
  | p2a_ub e1 => exact (q'.wrk _ _ (set_self e1)).elim
  | p2b_ub e1 => exact (q'.wrk _ _ (set_self e1)).elim
  | call_ub e1 => exact (q'.wrk _ _ (set_self e1)).elim
  | free_ub e1 => exact (q'.wrk _ _ (set_self e1)).elim
  | _ =>
    first
    | exact h.same rfl (.inl rfl) rfl rfl rfl
    | exact h.same rfl (.inr ⟨_, _, _, by assumption, rfl, by simp⟩) rfl rfl rfl
    | exact h.move (by assumption) rfl rfl rfl rfl rfl (by simp [carr]) (by simp) (by simp)

theorem TInv.init {s : Sys J} (h : Init s) : TInv s := by
  obtain ⟨_, _, _, hl, _, hv, _⟩ := h
  exact ⟨fun _ h => by omega, fun h => by simp [hv] at h⟩

/-- what a thread inside `thpool_wait` knows -/
def WtInv (s : Sys J) : Wt → Prop
  | .idle => True
  | .tlock n | .t0 n | .twoken n | .tasleep n => ∀ id, id ∈ n → id < s.added.length
  | .tw n => (∀ id, id ∈ n → id < s.added.length) ∧ (0 < s.len ∨ 0 < s.working)
  | .t1 n => ∀ id, id ∈ n → id < s.dequeued.length
  | .tunl n => ∀ id, id ∈ n → id ∈ s.done

structure VInv (s : Sys J) : Prop where
  wt : ∀ (t : Nat) pc, s.wt[t]? = some pc → WtInv s pc
  /-- one waiting thread: it is not left asleep -/
  solo : s.wt.length ≤ 1 → ∀ (t : Nat) n, s.wt[t]? = some (.tasleep n) → 0 < s.len ∨ 0 < s.working

/-- nothing that waiters know gets wrong -/
def Mono (s u : Sys J) : Prop :=
  s.added.length ≤ u.added.length ∧ s.dequeued.length ≤ u.dequeued.length ∧ (∀ id, id ∈ s.done → id ∈ u.done) ∧
  (0 < s.len ∨ 0 < s.working → 0 < u.len ∨ 0 < u.working)

theorem WtInv.mono {s u : Sys J} {pc : Wt} (h : WtInv s pc) (hl : s.added.length ≤ u.added.length)
    (hd : s.dequeued.length ≤ u.dequeued.length) (hm : ∀ id, id ∈ s.done → id ∈ u.done)
    (hw : ∀ n, pc = .tw n → 0 < s.len ∨ 0 < s.working → 0 < u.len ∨ 0 < u.working) : WtInv u pc := by
  cases pc with
  | idle => trivial
  | tlock n => exact fun id hi => Nat.lt_of_lt_of_le (h id hi) hl
  | t0 n => exact fun id hi => Nat.lt_of_lt_of_le (h id hi) hl
  | twoken n => exact fun id hi => Nat.lt_of_lt_of_le (h id hi) hl
  | tasleep n => exact fun id hi => Nat.lt_of_lt_of_le (h id hi) hl
  | tw n => exact ⟨fun id hi => Nat.lt_of_lt_of_le (h.1 id hi) hl, hw n rfl h.2⟩
  | t1 n => exact fun id hi => Nat.lt_of_lt_of_le (h id hi) hd
  | tunl n => exact fun id hi => hm id (h id hi)

theorem VInv.mono {s u : Sys J} (h : VInv s) (ht : u.wt = s.wt) (hm : Mono s u) : VInv u := by
  constructor
  · rw [ht]; exact fun t pc hp => (h.wt t pc hp).mono hm.1 hm.2.1 hm.2.2.1 (fun _ _ => hm.2.2.2)
  · rw [ht]; exact fun hl t n hp => hm.2.2.2 (h.solo hl t n hp)

/-- a waiter moves -/
theorem VInv.move {s u : Sys J} (h : VInv s) {t : Nat} {pc pc' : Wt} (hp : s.wt[t]? = some pc) (ht : u.wt = s.wt.set t pc') (hl : u.len = s.len)
    (hwk : u.working = s.working) (ha : u.added = s.added) (hd : u.dequeued = s.dequeued) (hdn : u.done = s.done)
    (hi : WtInv s pc → WtInv s pc') (hs : ∀ n, pc' = .tasleep n → WtInv s pc → 0 < s.len ∨ 0 < s.working) : VInv u := by
  have hm : ∀ {x : Wt}, WtInv s x → WtInv u x := by
    intro x hx
    refine hx.mono (by rw [ha]; omega) (by rw [hd]; omega) (by rw [hdn]; exact fun _ h => h) (by rw [hl, hwk]; exact fun _ _ h => h)
  constructor
  · rw [ht]
    intro k x hx
    rcases get_set hx with ⟨rfl, rfl⟩ | ⟨_, hx⟩
    · exact hm (hi (h.wt _ _ hp))
    · exact hm (h.wt k x hx)
  · rw [ht, hl, hwk]
    intro hle k n hx
    rcases get_set hx with ⟨rfl, e⟩ | ⟨_, hx⟩
    · exact hs n e.symm (h.wt _ _ hp)
    · exact h.solo (by simpa using hle) k n hx

/-- nobody is in the window: every job taken has been executed -/
theorem idle_done {s : Sys J} (j : JInv s) (hw : s.working = cnt win s.wrk) (h0 : s.working = 0) :
    ∀ id, id < s.dequeued.length → id ∈ s.done := by
  intro id hid
  have nw : ∀ (i : Nat) pc, s.wrk[i]? = some pc → win pc = 0 := by
    intro i pc hp
    have := cnt_le win hp
    omega
  rcases j.all id hid with h | ⟨i, pc, a, b⟩
  · rcases j.fin id h with h | ⟨i, pc, a, b⟩
    · exact h
    · have := nw i pc a
      cases pc <;> simp [run, win] at b this
  · have := nw i pc a
    cases pc <;> simp [pre, win] at b this

theorem VInv.step {e : Ev} {s u : Sys J} {L : List Nat} (st : Step e s u) (q : QInv s L) (hwk : s.working = cnt win s.wrk)
    (l : Life s) (j : JInv s) (h : VInv s) : VInv u := by
  have hwin : ∀ (i : Nat) pc, s.wrk[i]? = some pc → win pc = 1 → 0 < s.working := by
    intro i pc hp h1; have := cnt_le win hp; omega
  have hlen : s.len + s.dequeued.length = s.added.length := by
    have a := q.base.len; have b := q.base.cnt; simp only [Sys.q] at a b; omega
  cases st with
  | dec e1 e2 e3 => exact h.mono rfl ⟨Nat.le_refl _, Nat.le_refl _, fun _ h => h, fun _ => by simp only [Sys.atW]; omega⟩
  | @dec_last _ _ i e1 e2 e3 hn =>
    obtain ⟨T, rfl, hT⟩ := hn.eq
    have htc : ∀ (t : Nat) pc, s.wt[t]? = some pc → TSec pc = false := by
      intro t pc hp
      cases hb : TSec pc with
      | false => rfl
      | true => have := l.tcw t pc hp hb; rw [e2] at this; simp at this
    rcases hT with ⟨t, snap, a, hT⟩ | ⟨a, hT⟩
    · simp only [] at a hT; subst hT
      constructor
      · intro k x hx
        rcases get_set hx with ⟨rfl, rfl⟩ | ⟨hk, hx⟩
        · exact h.wt _ _ a
        · exact (h.wt k x hx).mono (Nat.le_refl _) (Nat.le_refl _) (fun _ h => h)
            (fun n e _ => by subst e; have := htc k _ hx; simp [TSec] at this)
      · intro hle k n hx
        rcases get_set hx with ⟨rfl, e⟩ | ⟨hk, hx⟩
        · simp at e
        · simp [Sys.atW] at hle
          have h1 : k < s.wt.length := by
            rcases Nat.lt_or_ge k s.wt.length with h' | h'
            · exact h'
            · rw [List.getElem?_eq_none h'] at hx; simp at hx
          have h2 : t < s.wt.length := by
            rcases Nat.lt_or_ge t s.wt.length with h' | h'
            · exact h'
            · rw [List.getElem?_eq_none h'] at a; simp at a
          omega
    · simp only [] at a hT; subst hT
      constructor
      · intro k x hx
        exact (h.wt k x hx).mono (Nat.le_refl _) (Nat.le_refl _) (fun _ h => h)
            (fun n e _ => by subst e; have := htc k _ hx; simp [TSec] at this)
      · intro hle k n hx
        exact absurd hx (a k n)
  | @inc _ i e1 e2 => exact h.mono rfl ⟨Nat.le_refl _, Nat.le_refl _, fun _ h => h, fun _ => .inr (by simp [Sys.atW])⟩
  | p1c e1 e2 => exact h.mono rfl ⟨Nat.le_refl _, by simp [Sys.atW], fun _ h => h, fun _ => .inr (hwin _ _ e1 rfl)⟩
  | p2b e1 e2 => exact h.mono rfl ⟨Nat.le_refl _, by simp [Sys.atW], fun _ h => h, fun _ => .inr (hwin _ _ e1 rfl)⟩
  | ret e1 => exact h.mono rfl ⟨Nat.le_refl _, Nat.le_refl _, fun _ h => by simp [Sys.atW, h], fun h => h⟩
  | s3 e1 e2 => exact h.mono rfl ⟨by simp [Sys.atS], Nat.le_refl _, fun _ h => h, fun _ => .inl (by simp [Sys.atS])⟩
  | p2c e1 hp =>
    obtain ⟨W, rfl, _⟩ := hp.eq
    exact h.mono rfl ⟨Nat.le_refl _, Nat.le_refl _, fun _ h => h, fun h => h⟩
  | s4 e1 hp =>
    obtain ⟨W, rfl, _⟩ := hp.eq
    exact h.mono rfl ⟨Nat.le_refl _, Nat.le_refl _, fun _ h => h, fun h => h⟩
  | wait e1 => exact h.move e1 rfl rfl rfl rfl rfl rfl (fun _ => j.ret) (by simp)
  | tlock e1 => exact h.move e1 rfl rfl rfl rfl rfl rfl (fun h => h) (by simp)
  | twoken e1 => exact h.move e1 rfl rfl rfl rfl rfl rfl (fun h => h) (by simp)
  | spur_t e1 => exact h.move e1 rfl rfl rfl rfl rfl rfl (fun h => h) (by simp)
  | t0_wait e1 e2 => exact h.move e1 rfl rfl rfl rfl rfl rfl (fun h => ⟨h, .inl (by omega)⟩) (by simp)
  | t0 e1 e2 => exact h.move e1 rfl rfl rfl rfl rfl rfl (fun h id hi => by have := h id hi; omega) (by simp)
  | t1_wait e1 e2 =>
    exact h.move e1 rfl rfl rfl rfl rfl rfl (fun h => ⟨fun id hi => by have := h id hi; omega, .inr (by omega)⟩) (by simp)
  | t1 e1 e2 => exact h.move e1 rfl rfl rfl rfl rfl rfl (fun h id hi => idle_done j hwk e2 id (h id hi)) (by simp)
  | tw e1 => exact h.move e1 rfl rfl rfl rfl rfl rfl (fun h => h.1) (fun n e hh => hh.2)
  | tunl e1 => exact h.move e1 rfl rfl rfl rfl rfl rfl (fun _ => trivial) (by simp)
  | _ => exact h.mono rfl ⟨Nat.le_refl _, Nat.le_refl _, fun _ h => h, fun h => h⟩

theorem VInv.init {s : Sys J} (h : Init s) : VInv s := by
  obtain ⟨_, _, _, _, _, _, _, _, _, _, _, _, _, hw, _⟩ := h
  exact ⟨fun t pc hp => by rw [hw t pc hp]; trivial, fun _ t n hp => by have := hw t _ hp; simp at this⟩

/-- everything that holds in every reachable state -/
structure Inv (s : Sys J) : Prop where
  q : ∃ L, QInv s L
  working : s.working = cnt win s.wrk
  alive : s.alive = cnt liv s.wrk
  life : Life s
  jobs : JInv s
  tok : TInv s
  wt : VInv s

theorem Inv.init {s : Sys J} (h : Init s) : Inv s := by
  refine ⟨⟨[], QInv.init h⟩, ?_, ?_, ?_, JInv.init h, TInv.init h, VInv.init h⟩
  all_goals obtain ⟨_, _, _, _, _, _, hk, ha, hw, htc, hr, hb, hs, ht, hd, _⟩ := h
  · rw [hw, cnt_zero]; intro i a h; rw [hb i a h]; rfl
  · rw [ha, cnt_zero]; intro i a h; rw [hb i a h]; rfl
  · refine ⟨?_, ?_, ?_, ?_, ?_, ?_, ?_, ?_, ?_, ?_, ?_⟩ <;> grind [TSec, Out]

theorem Inv.step {e : Ev} {s u : Sys J} (st : Step e s u) (h : Inv s) : Inv u := by
  obtain ⟨⟨L, q⟩, hw, ha, l, j, t, v⟩ := h
  exact ⟨q.step st, working_step st hw, alive_step st ha, l.step st ha, j.step st q, t.step st q, v.step st q hw l j⟩

theorem Inv.steps {ok : Ev → Prop} {s u : Sys J} (h : Steps ok s u) (hs : Inv s) : Inv u := by
  induction h with
  | refl => exact hs
  | step _ _ st ih => exact ih.step st

theorem Reach.inv {s : Sys J} (h : Reach s) : Inv s := by
  obtain ⟨i, hi, hs⟩ := h
  exact Inv.steps hs (.init hi)

end Verif.Thpool
