import Verif.Thpool.Count
/-! Every job taken from the queue is run exactly once. -/
namespace Verif.Thpool
variable {J : Type}

/-- the job a worker has taken and not yet called -/
def pre : Wrk → Option Nat
  | .p2c (some _) id | .punl (some _) id | .call (some _) id => some id
  | _ => none

/-- the job a worker is executing -/
def run : Wrk → Option Nat
  | .running _ id => some id
  | _ => none

structure JInv (s : Sys J) : Prop where
  lt : ∀ (i : Nat) pc id, s.wrk[i]? = some pc → pre pc = some id → id < s.dequeued.length
  uniq : ∀ (i k : Nat) pc pc' id, s.wrk[i]? = some pc → s.wrk[k]? = some pc' → pre pc = some id → pre pc' = some id → i = k
  runq : ∀ (i k : Nat) pc pc' id, s.wrk[i]? = some pc → s.wrk[k]? = some pc' → run pc = some id → run pc' = some id → i = k
  all : ∀ id, id < s.dequeued.length → id ∈ s.calls.map (·.1) ∨ ∃ (i : Nat) (pc : Wrk), s.wrk[i]? = some pc ∧ pre pc = some id
  fresh : ∀ (i : Nat) pc id, s.wrk[i]? = some pc → pre pc = some id → id ∉ s.calls.map (·.1)
  job : ∀ x, x ∈ s.calls → s.dequeued[x.1]? = some x.2
  nd : (s.calls.map (·.1)).Nodup
  fin : ∀ id, id ∈ s.calls.map (·.1) → id ∈ s.done ∨ ∃ (i : Nat) (pc : Wrk), s.wrk[i]? = some pc ∧ run pc = some id
  nfin : ∀ (i : Nat) pc id, s.wrk[i]? = some pc → run pc = some id → id ∉ s.done ∧ id ∈ s.calls.map (·.1)
  done : ∀ id, id ∈ s.done → id ∈ s.calls.map (·.1)
  dnd : s.done.Nodup
  ret : ∀ id, id ∈ s.returned → id < s.added.length

theorem get_set_iff {α} {l : List α} {i : Nat} {a b : α} (h : l[i]? = some a) (k : Nat) (x : α) :
    (l.set i b)[k]? = some x ↔ (k = i ∧ x = b) ∨ (k ≠ i ∧ l[k]? = some x) := by
  constructor
  · exact get_set
  · rintro (⟨rfl, rfl⟩ | ⟨h1, h2⟩)
    · exact set_self h
    · rw [set_other h1]; exact h2

/-- a worker moves, or sleepers are woken, and nothing that concerns jobs changes -/
theorem JInv.move {s u : Sys J} (h : JInv s) {W : List Wrk} (hW : Wakes s.wrk W) {i : Nat} {pc pc' : Wrk} (hp : W[i]? = some pc)
    (hu : u.wrk = W.set i pc') (hpre : pre pc' = pre pc) (hrun : run pc' = run pc) (h1 : u.dequeued = s.dequeued)
    (h2 : u.calls = s.calls) (h3 : u.done = s.done) (h4 : u.added = s.added) (h5 : u.returned = s.returned) : JInv u := by
  have key : ∀ (k : Nat) x, u.wrk[k]? = some x → ∃ y, s.wrk[k]? = some y ∧ pre x = pre y ∧ run x = run y := by
    intro k x hx
    have : ∃ y, W[k]? = some y ∧ pre x = pre y ∧ run x = run y := by
      rw [hu] at hx
      rcases get_set hx with ⟨rfl, rfl⟩ | ⟨_, hx⟩
      · exact ⟨pc, hp, hpre, hrun⟩
      · exact ⟨x, hx, rfl, rfl⟩
    obtain ⟨y, h1, h2, h3⟩ := this
    rcases hW.back h1 with h' | ⟨rfl, h'⟩
    · exact ⟨y, h', h2, h3⟩
    · exact ⟨_, h', h2, h3⟩
  have kez : ∀ (k : Nat) y, s.wrk[k]? = some y → ∃ x, u.wrk[k]? = some x ∧ pre x = pre y ∧ run x = run y := by
    intro k y hy
    have hlen : k < u.wrk.length := by
      rw [hu, List.length_set, hW.1]
      rcases Nat.lt_or_ge k s.wrk.length with h' | h'
      · exact h'
      · rw [List.getElem?_eq_none h'] at hy; simp at hy
    obtain ⟨z, a, b, c⟩ := key k _ (List.getElem?_eq_getElem hlen)
    rw [hy] at a; simp at a; subst a
    exact ⟨_, List.getElem?_eq_getElem hlen, b, c⟩
  obtain ⟨c1, c2, c3, c4, c5, c6, c7, c8, c9, c10, c11, c12⟩ := h
  refine ⟨?_, ?_, ?_, ?_, ?_, ?_, ?_, ?_, ?_, ?_, ?_, ?_⟩
  · intro k x id hx hh; obtain ⟨y, a, b, c⟩ := key k x hx; rw [h1]; exact c1 k y id a (b ▸ hh)
  · intro k m x y id hx hy hh hh'
    obtain ⟨x', a, b, c⟩ := key k x hx
    obtain ⟨y', a', b', c'⟩ := key m y hy
    exact c2 k m x' y' id a a' (b ▸ hh) (b' ▸ hh')
  · intro k m x y id hx hy hh hh'
    obtain ⟨x', a, b, c⟩ := key k x hx
    obtain ⟨y', a', b', c'⟩ := key m y hy
    exact c3 k m x' y' id a a' (c ▸ hh) (c' ▸ hh')
  · intro id hid
    rw [h1] at hid; rw [h2]
    rcases c4 id hid with h | ⟨k, y, a, b⟩
    · exact .inl h
    · obtain ⟨x, a', b', c'⟩ := kez k y a
      exact .inr ⟨k, x, a', b'.trans b⟩
  · intro k x id hx hh; obtain ⟨y, a, b, c⟩ := key k x hx; rw [h2]; exact c5 k y id a (b ▸ hh)
  · rw [h1, h2]; exact c6
  · rw [h2]; exact c7
  · intro id hid
    rw [h2] at hid; rw [h3]
    rcases c8 id hid with h | ⟨k, y, a, b⟩
    · exact .inl h
    · obtain ⟨x, a', b', c'⟩ := kez k y a
      exact .inr ⟨k, x, a', c'.trans b⟩
  · intro k x id hx hh; obtain ⟨y, a, b, c⟩ := key k x hx; rw [h2, h3]; exact c9 k y id a (c ▸ hh)
  · rw [h2, h3]; exact c10
  · rw [h3]; exact c11
  · rw [h4, h5]; exact c12

theorem JInv.same {s u : Sys J} (h : JInv s) {W : List Wrk} (hW : Wakes s.wrk W)
    (hu : u.wrk = W) (h1 : u.dequeued = s.dequeued)
    (h2 : u.calls = s.calls) (h3 : u.done = s.done) (h4 : ∃ n, s.added.length + n = u.added.length)
    (h5 : ∀ id, id ∈ u.returned → id ∈ s.returned ∨ id < s.added.length) : JInv u := by
  obtain ⟨n, h4⟩ := h4
  have hs : ∀ id, id ∈ u.returned → id < u.added.length := by
    intro id hid
    rcases h5 id hid with h' | h'
    · have := h.ret id h'; omega
    · omega
  have key : ∀ (k : Nat) x, u.wrk[k]? = some x → ∃ y, s.wrk[k]? = some y ∧ pre x = pre y ∧ run x = run y := by
    intro k x hx
    rw [hu] at hx
    rcases hW.back hx with h' | ⟨rfl, h'⟩
    · exact ⟨x, h', rfl, rfl⟩
    · exact ⟨_, h', rfl, rfl⟩
  have kez : ∀ (k : Nat) y, s.wrk[k]? = some y → ∃ x, u.wrk[k]? = some x ∧ pre x = pre y ∧ run x = run y := by
    intro k y hy
    have hlen : k < u.wrk.length := by
      rw [hu, hW.1]
      rcases Nat.lt_or_ge k s.wrk.length with h' | h'
      · exact h'
      · rw [List.getElem?_eq_none h'] at hy; simp at hy
    obtain ⟨z, a, b, c⟩ := key k _ (List.getElem?_eq_getElem hlen)
    rw [hy] at a; simp at a; subst a
    exact ⟨_, List.getElem?_eq_getElem hlen, b, c⟩
  obtain ⟨c1, c2, c3, c4, c5, c6, c7, c8, c9, c10, c11, c12⟩ := h
  refine ⟨?_, ?_, ?_, ?_, ?_, ?_, ?_, ?_, ?_, ?_, ?_, hs⟩
  · intro k x id hx hh; obtain ⟨y, a, b, c⟩ := key k x hx; rw [h1]; exact c1 k y id a (b ▸ hh)
  · intro k m x y id hx hy hh hh'
    obtain ⟨x', a, b, c⟩ := key k x hx
    obtain ⟨y', a', b', c'⟩ := key m y hy
    exact c2 k m x' y' id a a' (b ▸ hh) (b' ▸ hh')
  · intro k m x y id hx hy hh hh'
    obtain ⟨x', a, b, c⟩ := key k x hx
    obtain ⟨y', a', b', c'⟩ := key m y hy
    exact c3 k m x' y' id a a' (c ▸ hh) (c' ▸ hh')
  · intro id hid
    rw [h1] at hid; rw [h2]
    rcases c4 id hid with h | ⟨k, y, a, b⟩
    · exact .inl h
    · obtain ⟨x, a', b', c'⟩ := kez k y a
      exact .inr ⟨k, x, a', b'.trans b⟩
  · intro k x id hx hh; obtain ⟨y, a, b, c⟩ := key k x hx; rw [h2]; exact c5 k y id a (b ▸ hh)
  · rw [h1, h2]; exact c6
  · rw [h2]; exact c7
  · intro id hid
    rw [h2] at hid; rw [h3]
    rcases c8 id hid with h | ⟨k, y, a, b⟩
    · exact .inl h
    · obtain ⟨x, a', b', c'⟩ := kez k y a
      exact .inr ⟨k, x, a', c'.trans b⟩
  · intro k x id hx hh; obtain ⟨y, a, b, c⟩ := key k x hx; rw [h2, h3]; exact c9 k y id a (c ▸ hh)
  · rw [h2, h3]; exact c10
  · rw [h3]; exact c11

theorem JInv.deq {s u : Sys J} (h : JInv s) {i : Nat} {pc pc' : Wrk} {j : J} (hp : s.wrk[i]? = some pc)
    (hu : u.wrk = s.wrk.set i pc') (hpre : pre pc = none) (hrun : run pc = none)
    (hpre' : pre pc' = some s.dequeued.length) (hrun' : run pc' = none) (h1 : u.dequeued = s.dequeued ++ [j])
    (h2 : u.calls = s.calls) (h3 : u.done = s.done) (h4 : u.added = s.added) (h5 : u.returned = s.returned) : JInv u := by
  obtain ⟨c1, c2, c3, c4, c5, c6, c7, c8, c9, c10, c11, c12⟩ := h
  have hlt : ∀ id, id ∈ s.calls.map (·.1) → id < s.dequeued.length := by
    intro id hid
    obtain ⟨x, hx, rfl⟩ := List.mem_map.1 hid
    have := c6 x hx
    rcases Nat.lt_or_ge x.1 s.dequeued.length with h' | h'
    · exact h'
    · rw [List.getElem?_eq_none h'] at this; simp at this
  have hg := get_set_iff (b := pc') hp
  rw [← hu] at hg
  refine ⟨?_, ?_, ?_, ?_, ?_, ?_, ?_, ?_, ?_, ?_, ?_, ?_⟩
  · rw [h1]; grind
  · grind
  · grind
  · rw [h1, h2]; simp only [List.length_append, List.length_singleton]; intro id hid
    by_cases e : id = s.dequeued.length
    · exact .inr ⟨i, pc', (hg i pc').2 (.inl ⟨rfl, rfl⟩), e ▸ hpre'⟩
    · rcases c4 id (by omega) with h | ⟨k, y, a, b⟩
      · exact .inl h
      · exact .inr ⟨k, y, (hg k y).2 (.inr ⟨by rintro rfl; rw [hp] at a; simp at a; subst a; simp [hpre] at b, a⟩), b⟩
  · rw [h2]; intro k x id hx hh hid
    rcases (hg k x).1 hx with ⟨rfl, rfl⟩ | ⟨h, h'⟩
    · rw [hpre'] at hh; simp at hh; have := hlt id hid; omega
    · exact c5 k x id h' hh hid
  · rw [h1, h2]; intro x hx
    rw [List.getElem?_append_left (hlt _ (List.mem_map.2 ⟨x, hx, rfl⟩))]; exact c6 x hx
  · rw [h2]; exact c7
  · intro id hid
    rw [h2] at hid; rw [h3]
    rcases c8 id hid with h | ⟨k, y, a, b⟩
    · exact .inl h
    · exact .inr ⟨k, y, (hg k y).2 (.inr ⟨by rintro rfl; rw [hp] at a; simp at a; subst a; simp [hrun] at b, a⟩), b⟩
  · rw [h2, h3]; grind
  · rw [h2, h3]; exact c10
  · rw [h3]; exact c11
  · rw [h4, h5]; exact c12

theorem JInv.step {e : Ev} {s u : Sys J} {L : List Nat} (st : Step e s u) (q : QInv s L) (h : JInv s) : JInv u := by
  obtain ⟨L', q'⟩ := q.step st
  cases st with
  | take e1 => rcases e1 with e1 | e1 <;> exact h.move (.refl _) e1 rfl rfl rfl rfl rfl rfl rfl rfl
  | sleep e1 => rcases e1 with e1 | e1 <;> exact h.move (.refl _) e1 rfl rfl rfl rfl rfl rfl rfl rfl
  | @pread0 _ i e1 e2 =>
    refine h.move (.refl _) e1 rfl ?_ rfl rfl rfl rfl rfl rfl
    have hq := q.wrk _ _ e1
    have hf : s.front = L[0]? := hq.2.front
    have hl : s.len = L.length := q.base.len
    have : L = [] := List.eq_nil_of_length_eq_zero (by omega)
    rw [hf, this]; rfl
  | p1c e1 e2 => exact h.deq e1 rfl rfl rfl rfl rfl rfl rfl rfl rfl rfl
  | p2b e1 e2 => exact h.deq e1 rfl rfl rfl rfl rfl rfl rfl rfl rfl rfl
  | @p2c _ _ i jp id e1 hp =>
    obtain ⟨W, rfl, hW, _⟩ := hp.eq
    refine h.move hW (hW.get e1 (by simp)) rfl ?_ rfl rfl rfl rfl rfl rfl
    cases jp <;> rfl
  | @punl _ i jp id e1 =>
    refine h.move (.refl _) e1 rfl ?_ rfl rfl rfl rfl rfl rfl
    cases jp <;> rfl
  | @call _ i p id c e1 e2 =>
    have hj : s.dequeued[id]? = some c.job := by
      obtain ⟨c', a, _, b⟩ := q.wrk _ _ e1 p rfl
      have a : s.heap p = some c' := a
      rw [e2] at a; simp at a; subst a; exact b
    obtain ⟨c1, c2, c3, c4, c5, c6, c7, c8, c9, c10, c11, c12⟩ := h
    have hfr := c5 _ _ id e1 rfl
    have hg := get_set_iff (b := Wrk.running p id) e1
    have hnr : ∀ (k : Nat) x, s.wrk[k]? = some x → run x ≠ some id := fun k x a b => hfr (c9 k x id a b).2
    refine ⟨?_, ?_, ?_, ?_, ?_, ?_, ?_, ?_, ?_, ?_, ?_, ?_⟩ <;> simp only [Sys.atW, List.map_append, List.map_cons, List.map_nil]
    · grind [pre]
    · grind [pre]
    · intro k m x y id' hx hy hh hh'
      rcases (hg k x).1 hx with ⟨rfl, rfl⟩ | ⟨a, a'⟩ <;> rcases (hg m y).1 hy with ⟨rfl, rfl⟩ | ⟨b, b'⟩
      · rfl
      · simp only [run, Option.some.injEq] at hh; subst hh; exact absurd hh' (hnr m y b')
      · simp only [run, Option.some.injEq] at hh'; subst hh'; exact absurd hh (hnr k x a')
      · exact c3 k m x y id' a' b' hh hh'
    · intro id' hid
      rcases c4 id' hid with h | ⟨k, y, a, b⟩
      · exact .inl (List.mem_append_left _ h)
      · by_cases e : k = i
        · subst e; rw [e1] at a; simp at a; subst a; simp [pre] at b; subst b; exact .inl (by simp)
        · exact .inr ⟨k, y, (hg k y).2 (.inr ⟨e, a⟩), b⟩
    · intro k x id' hx hh
      rcases (hg k x).1 hx with ⟨rfl, rfl⟩ | ⟨a, a'⟩
      · simp [pre] at hh
      · have := c5 k x id' a' hh
        intro hm
        rcases List.mem_append.1 hm with hm | hm
        · exact this hm
        · simp at hm; subst hm; exact a (c2 _ _ _ _ _ a' e1 hh rfl)
    · intro x hx
      rcases List.mem_append.1 hx with hm | hm
      · exact c6 x hm
      · simp at hm; subst hm; exact hj
    · rw [List.nodup_append]; exact ⟨c7, by simp, by intro a ha b hb; simp at hb; subst hb; rintro rfl; exact hfr ha⟩
    · intro id' hid
      rcases List.mem_append.1 hid with hm | hm
      · rcases c8 id' hm with h | ⟨k, y, a, b⟩
        · exact .inl h
        · exact .inr ⟨k, y, (hg k y).2 (.inr ⟨by rintro rfl; rw [e1] at a; simp at a; subst a; simp [run] at b, a⟩), b⟩
      · simp at hm; subst hm; exact .inr ⟨i, _, (hg _ _).2 (.inl ⟨rfl, rfl⟩), rfl⟩
    · intro k x id' hx hh
      rcases (hg k x).1 hx with ⟨rfl, rfl⟩ | ⟨a, a'⟩
      · simp [run] at hh; subst hh; exact ⟨fun h => hfr (c10 _ h), by simp⟩
      · exact ⟨(c9 k x id' a' hh).1, List.mem_append_left _ (c9 k x id' a' hh).2⟩
    · exact fun id' h => List.mem_append_left _ (c10 _ h)
    · exact c11
    · exact c12
  | @ret _ i p id e1 =>
    obtain ⟨c1, c2, c3, c4, c5, c6, c7, c8, c9, c10, c11, c12⟩ := h
    have hg := get_set_iff (b := Wrk.free p id) e1
    have hn := c9 _ _ id e1 rfl
    refine ⟨?_, ?_, ?_, ?_, ?_, ?_, ?_, ?_, ?_, ?_, ?_, ?_⟩ <;> simp only [Sys.atW]
    · grind [pre]
    · grind [pre]
    · grind [run]
    · intro id' hid
      rcases c4 id' hid with h | ⟨k, y, a, b⟩
      · exact .inl h
      · exact .inr ⟨k, y, (hg k y).2 (.inr ⟨by rintro rfl; rw [e1] at a; simp at a; subst a; simp [pre] at b, a⟩), b⟩
    · grind [pre]
    · exact c6
    · exact c7
    · intro id' hm
      rcases c8 id' hm with h | ⟨k, y, a, b⟩
      · exact .inl (List.mem_append_left _ h)
      · by_cases e : k = i
        · subst e; rw [e1] at a; simp at a; subst a; simp [run] at b; subst b; exact .inl (by simp)
        · exact .inr ⟨k, y, (hg k y).2 (.inr ⟨e, a⟩), b⟩
    · intro k x id' hx hh
      rcases (hg k x).1 hx with ⟨rfl, rfl⟩ | ⟨a, a'⟩
      · simp [run] at hh
      · refine ⟨fun hm => ?_, (c9 k x id' a' hh).2⟩
        rcases List.mem_append.1 hm with hm | hm
        · exact (c9 k x id' a' hh).1 hm
        · simp at hm; subst hm; exact a (c3 _ _ _ _ _ a' e1 hh rfl)
    · intro id' hm
      rcases List.mem_append.1 hm with hm | hm
      · exact c10 _ hm
      · simp at hm; subst hm; exact hn.2
    · rw [List.nodup_append]; exact ⟨c11, by simp, by intro a ha b hb; simp at hb; subst hb; rintro rfl; exact hn.1 ha⟩
    · exact c12
  | dec_last e1 e2 e3 hn =>
    obtain ⟨T, rfl, _⟩ := hn.eq
    exact h.move (.refl _) e1 rfl rfl rfl rfl rfl rfl rfl rfl
  | s4 e1 hp =>
    obtain ⟨W, rfl, hW, _⟩ := hp.eq
    exact h.same hW rfl rfl rfl rfl ⟨0, rfl⟩ (fun _ h => .inl h)
  | s3 => exact h.same (.refl _) rfl rfl rfl rfl ⟨1, by simp [Sys.atS]⟩ (fun _ h => .inl h)
  | s5 e1 =>
    have := (q.sub _ _ e1).2.2
    refine h.same (.refl _) rfl rfl rfl rfl ⟨0, rfl⟩ (fun x hx => ?_)
    simp [Sys.atS] at hx
    rcases hx with h | rfl
    · exact .inl h
    · exact .inr this
  | d_post => exact h.same (.map _) rfl rfl rfl rfl ⟨0, rfl⟩ (fun _ h => .inl h)
  | p1c_ub e1 => exact (q'.wrk _ _ (set_self e1)).elim
  | p2a_ub e1 => exact (q'.wrk _ _ (set_self e1)).elim
  | p2b_ub e1 => exact (q'.wrk _ _ (set_self e1)).elim
  | call_ub e1 => exact (q'.wrk _ _ (set_self e1)).elim
  | free_ub e1 => exact (q'.wrk _ _ (set_self e1)).elim
  | _ =>
    first
    | exact h.same (.refl _) rfl rfl rfl rfl ⟨0, rfl⟩ (fun _ h => .inl h)
    | exact h.move (.refl _) (by assumption) rfl (by rfl) (by rfl) rfl rfl rfl rfl rfl

theorem JInv.init {s : Sys J} (h : Init s) : JInv s := by
  obtain ⟨_, _, _, _, _, _, _, _, _, _, _, hb, _, _, _, ha, hr, hd, hc, hdn⟩ := h
  have hp : ∀ (i : Nat) pc id, s.wrk[i]? = some pc → pre pc ≠ some id := by
    intro i pc id h; rw [hb i pc h]; simp [pre]
  have hr' : ∀ (i : Nat) pc id, s.wrk[i]? = some pc → run pc ≠ some id := by
    intro i pc id h; rw [hb i pc h]; simp [run]
  refine ⟨?_, ?_, ?_, ?_, ?_, ?_, ?_, ?_, ?_, ?_, ?_, ?_⟩ <;> (try rw [hd]) <;> (try rw [hc]) <;> (try rw [hdn]) <;>
    (try rw [hr]) <;> grind

end Verif.Thpool
