import Verif.Thpool.Model
/-! Invariant of the linked job queue and its mutex. -/
namespace Verif.Thpool
variable {J : Type}

/-- the part of the state the queue invariant is about -/
structure QV (J : Type) where
  heap : Nat → Option (Cell J)
  front : Option Nat
  rear : Option Nat
  rw : Option Who
  len : Nat
  added : List J
  dequeued : List J

def Sys.q (s : Sys J) : QV J := ⟨s.heap, s.front, s.rear, s.rw, s.len, s.added, s.dequeued⟩

/-- the cells of the jobs in the queue, oldest first; `tail` is the `prev` field of the newest -/
def Cells (q : QV J) (L : List Nat) (tail : Option Nat) : Prop :=
  ∀ j p, L[j]? = some p → ∃ c, q.heap p = some c ∧ c.own = .queue (q.dequeued.length + j) ∧
    q.added[q.dequeued.length + j]? = some c.job ∧ c.prev = (if j + 1 < L.length then L[j + 1]? else tail)

structure Shape (q : QV J) (L : List Nat) (tail f r : Option Nat) : Prop where
  cells : Cells q L tail
  front : q.front = f
  rear : q.rear = r

/-- the shape when nobody is working on the queue -/
abbrev Stable (q : QV J) (L : List Nat) : Prop := Shape q L none L[0]? L.getLast?

def Held (q : QV J) (p t : Nat) : Prop := ∃ c, q.heap p = some c ∧ c.own = .sub t
def HeldN (q : QV J) (p t : Nat) : Prop := ∃ c, q.heap p = some c ∧ c.own = .sub t ∧ c.prev = none
def HeldW (q : QV J) (jp : Option Nat) (i id : Nat) : Prop :=
  ∀ p, jp = some p → ∃ c, q.heap p = some c ∧ c.own = .wrk i id ∧ q.dequeued[id]? = some c.job

def SInv (q : QV J) (L : List Nat) (t : Nat) : Sub → Prop
  | .idle => True
  | .slock p => Held q p t
  | .s0 p => q.rw = some (.sub t) ∧ Held q p t ∧ Stable q L
  | .s1 p => q.rw = some (.sub t) ∧ HeldN q p t ∧ Stable q L
  | .s2 p => q.rw = some (.sub t) ∧ HeldN q p t ∧ Shape q L (some p) (L ++ [p])[0]? L.getLast?
  | .s3 p => q.rw = some (.sub t) ∧ HeldN q p t ∧ Shape q L (some p) (L ++ [p])[0]? (some p)
  | .s4 id => q.rw = some (.sub t) ∧ Stable q L ∧ id < q.added.length
  | .s5 id => q.rw = some (.sub t) ∧ Stable q L ∧ id < q.added.length
  | .ub => False

def WInv (q : QV J) (L : List Nat) (i : Nat) : Wrk → Prop
  | .pread => q.rw = some (.wrk i) ∧ Stable q L
  | .p1a jp => q.rw = some (.wrk i) ∧ L.length = 1 ∧ jp = L[0]? ∧ Stable q L
  | .p1b jp => q.rw = some (.wrk i) ∧ L.length = 1 ∧ jp = L[0]? ∧ Shape q L none none L.getLast?
  | .p1c jp => q.rw = some (.wrk i) ∧ L.length = 1 ∧ jp = L[0]? ∧ Shape q L none none none
  | .p2a jp => q.rw = some (.wrk i) ∧ 1 < L.length ∧ jp = L[0]? ∧ Stable q L
  | .p2b jp => q.rw = some (.wrk i) ∧ 1 < L.length ∧ jp = L[0]? ∧ Shape q L none L[1]? L.getLast?
  | .p2c jp id => q.rw = some (.wrk i) ∧ HeldW q jp i id ∧ jp ≠ none ∧ Stable q L
  | .punl jp id => q.rw = some (.wrk i) ∧ HeldW q jp i id ∧ Stable q L
  | .call jp id => HeldW q jp i id
  | .running p id => HeldW q (some p) i id
  | .free p id => HeldW q (some p) i id
  | .ub => False
  | _ => True

structure Base (q : QV J) (L : List Nat) : Prop where
  len : q.len = L.length
  cnt : L.length + q.dequeued.length = q.added.length
  deq : q.dequeued <+: q.added
  free : q.rw = none → Stable q L

/-- the pcs of a worker inside `rwmutex` -/
def WSec : Wrk → Prop
  | .pread | .p1a _ | .p1b _ | .p1c _ | .p2a _ | .p2b _ | .p2c _ _ | .punl _ _ => True
  | _ => False

/-- the pcs of an adding thread inside `rwmutex` -/
def SSec : Sub → Prop
  | .s0 _ | .s1 _ | .s2 _ | .s3 _ | .s4 _ | .s5 _ => True
  | _ => False

structure QInv (s : Sys J) (L : List Nat) : Prop where
  base : Base s.q L
  sub : ∀ t pc, s.sub[t]? = some pc → SInv s.q L t pc
  wrk : ∀ i pc, s.wrk[i]? = some pc → WInv s.q L i pc
  sown : ∀ t, s.rw = some (.sub t) → ∃ pc, s.sub[t]? = some pc ∧ SSec pc
  wown : ∀ i, s.rw = some (.wrk i) → ∃ pc, s.wrk[i]? = some pc ∧ WSec pc

/-! ### thread lists -/

theorem get_set {α} {l : List α} {i k : Nat} {a x : α} (h : (l.set i a)[k]? = some x) :
    (k = i ∧ x = a) ∨ (k ≠ i ∧ l[k]? = some x) := by
  rw [List.getElem?_set] at h
  split at h
  · next e =>
    split at h
    · left; simp at h; exact ⟨e.symm, h.symm⟩
    · simp at h
  · next e => right; exact ⟨fun h => e h.symm, h⟩

theorem set_self {α} {l : List α} {i : Nat} {a b : α} (h : l[i]? = some b) : (l.set i a)[i]? = some a := by
  have : i < l.length := by
    rcases Nat.lt_or_ge i l.length with h' | h'
    · exact h'
    · rw [List.getElem?_eq_none h'] at h; simp at h
  simp [this]

theorem set_other {α} {l : List α} {i k : Nat} {a : α} (h : k ≠ i) : (l.set i a)[k]? = l[k]? := by
  rw [List.getElem?_set]; simp [Ne.symm h]

/-! ### other threads are not disturbed -/

/-- what a thread outside the critical section relies on -/
theorem WInv.other {q q' : QV J} {L L' : List Nat} {i : Nat} {pc : Wrk} (h : WInv q L i pc) (hr : q.rw ≠ some (.wrk i))
    (hh : ∀ p c id, q.heap p = some c → c.own = .wrk i id → q'.heap p = some c)
    (hd : q.dequeued <+: q'.dequeued) : WInv q' L' i pc := by
  have held : ∀ jp id, HeldW q jp i id → HeldW q' jp i id := by
    intro jp id h p hp
    obtain ⟨c, h1, h2, h3⟩ := h p hp
    refine ⟨c, hh p c id h1 h2, h2, ?_⟩
    obtain ⟨T, hT⟩ := hd
    rw [← hT]
    have : id < q.dequeued.length := by
      rcases Nat.lt_or_ge id q.dequeued.length with h' | h'
      · exact h'
      · rw [List.getElem?_eq_none h'] at h3; simp at h3
    rw [List.getElem?_append_left this]; exact h3
  cases pc with
  | pread => exact absurd h.1 hr
  | p1a => exact absurd h.1 hr
  | p1b => exact absurd h.1 hr
  | p1c => exact absurd h.1 hr
  | p2a => exact absurd h.1 hr
  | p2b => exact absurd h.1 hr
  | p2c => exact absurd h.1 hr
  | punl => exact absurd h.1 hr
  | call jp id => exact held _ _ h
  | running p id => exact held _ _ h
  | free p id => exact held _ _ h
  | ub => exact h
  | _ => trivial

theorem SInv.other {q q' : QV J} {L L' : List Nat} {t : Nat} {pc : Sub} (h : SInv q L t pc) (hr : q.rw ≠ some (.sub t))
    (hh : ∀ p c, q.heap p = some c → c.own = .sub t → q'.heap p = some c) : SInv q' L' t pc := by
  cases pc with
  | idle => trivial
  | slock p => obtain ⟨c, h1, h2⟩ := h; exact ⟨c, hh p c h1 h2, h2⟩
  | s0 => exact absurd h.1 hr
  | s1 => exact absurd h.1 hr
  | s2 => exact absurd h.1 hr
  | s3 => exact absurd h.1 hr
  | s4 => exact absurd h.1 hr
  | s5 => exact absurd h.1 hr
  | ub => exact h

theorem Cells.congr {q q' : QV J} {L : List Nat} {tl : Option Nat} (h : Cells q L tl)
    (hh : ∀ p c id, q.heap p = some c → c.own = .queue id → q'.heap p = some c) (hd : q'.dequeued = q.dequeued)
    (ha : q'.added = q.added) : Cells q' L tl := by
  intro j p hp
  obtain ⟨c, h1, h2, h3, h4⟩ := h j p hp
  exact ⟨c, hh p c _ h1 h2, by rw [hd]; exact h2, by rw [hd, ha]; exact h3, h4⟩

theorem Shape.congr {q q' : QV J} {L : List Nat} {tl f r : Option Nat} (h : Shape q L tl f r)
    (hh : ∀ p c id, q.heap p = some c → c.own = .queue id → q'.heap p = some c) (hd : q'.dequeued = q.dequeued)
    (ha : q'.added = q.added) (hf : q'.front = q.front) (hr : q'.rear = q.rear) : Shape q' L tl f r :=
  ⟨h.1.congr hh hd ha, hf.trans h.2, hr.trans h.3⟩

/-- a heap change that touches no queue cell and no cell of worker `i` -/
theorem WInv.heap {q : QV J} {h' : Nat → Option (Cell J)} {L : List Nat} {i : Nat} {pc : Wrk} (h : WInv q L i pc)
    (hq : ∀ p c id, q.heap p = some c → c.own = .queue id → h' p = some c)
    (hh : ∀ p c id, q.heap p = some c → c.own = .wrk i id → h' p = some c) : WInv { q with heap := h' } L i pc := by
  have held : ∀ jp id, HeldW q jp i id → HeldW { q with heap := h' } jp i id := by
    intro jp id h p hp
    obtain ⟨c, h1, h2, h3⟩ := h p hp
    exact ⟨c, hh p c id h1 h2, h2, h3⟩
  have sh : ∀ {tl f r}, Shape q L tl f r → Shape { q with heap := h' } L tl f r :=
    fun h => h.congr hq rfl rfl rfl rfl
  cases pc with
  | pread => exact ⟨h.1, sh h.2⟩
  | p1a => exact ⟨h.1, h.2.1, h.2.2.1, sh h.2.2.2⟩
  | p1b => exact ⟨h.1, h.2.1, h.2.2.1, sh h.2.2.2⟩
  | p1c => exact ⟨h.1, h.2.1, h.2.2.1, sh h.2.2.2⟩
  | p2a => exact ⟨h.1, h.2.1, h.2.2.1, sh h.2.2.2⟩
  | p2b => exact ⟨h.1, h.2.1, h.2.2.1, sh h.2.2.2⟩
  | p2c => exact ⟨h.1, held _ _ h.2.1, h.2.2.1, sh h.2.2.2⟩
  | punl => exact ⟨h.1, held _ _ h.2.1, sh h.2.2⟩
  | call jp id => exact held _ _ h
  | running p id => exact held _ _ h
  | free p id => exact held _ _ h
  | ub => exact h
  | _ => trivial

theorem SInv.heap {q : QV J} {h' : Nat → Option (Cell J)} {L : List Nat} {t : Nat} {pc : Sub} (h : SInv q L t pc)
    (hq : ∀ p c id, q.heap p = some c → c.own = .queue id → h' p = some c)
    (hh : ∀ p c, q.heap p = some c → c.own = .sub t → h' p = some c) : SInv { q with heap := h' } L t pc := by
  have sh : ∀ {tl f r}, Shape q L tl f r → Shape { q with heap := h' } L tl f r :=
    fun h => h.congr hq rfl rfl rfl rfl
  have hN : ∀ {p}, HeldN q p t → HeldN { q with heap := h' } p t := fun ⟨c, h1, h2, h3⟩ => ⟨c, hh _ c h1 h2, h2, h3⟩
  have hH : ∀ {p}, Held q p t → Held { q with heap := h' } p t := fun ⟨c, h1, h2⟩ => ⟨c, hh _ c h1 h2, h2⟩
  cases pc with
  | idle => trivial
  | slock p => exact hH h
  | s0 => exact ⟨h.1, hH h.2.1, sh h.2.2⟩
  | s1 => exact ⟨h.1, hN h.2.1, sh h.2.2⟩
  | s2 => exact ⟨h.1, hN h.2.1, sh h.2.2⟩
  | s3 => exact ⟨h.1, hN h.2.1, sh h.2.2⟩
  | s4 => exact ⟨h.1, sh h.2.1, h.2.2⟩
  | s5 => exact ⟨h.1, sh h.2.1, h.2.2⟩
  | ub => exact h

theorem WSec.owns {q : QV J} {L : List Nat} {i : Nat} {pc : Wrk} (h : WInv q L i pc) (hs : WSec pc) :
    q.rw = some (.wrk i) := by
  cases pc <;> first | exact h.1 | exact hs.elim

theorem put_self (h : Nat → Option (Cell J)) (p : Nat) (c : Option (Cell J)) : put h p c p = c := by simp [put]
theorem put_other (h : Nat → Option (Cell J)) {p q : Nat} (c : Option (Cell J)) (hne : q ≠ p) : put h p c q = h q := by
  simp [put, hne]

theorem SSec.owns {q : QV J} {L : List Nat} {t : Nat} {pc : Sub} (h : SInv q L t pc) (hs : SSec pc) :
    q.rw = some (.sub t) := by
  cases pc <;> first | exact h.1 | exact hs.elim

/-! ### generic steps -/

/-- a worker moves without touching the queue -/
theorem QInv.moveW {s s' : Sys J} {L : List Nat} (h : QInv s L) {i : Nat} {pc pc' : Wrk} (hp : s.wrk[i]? = some pc)
    (hq : s'.q = s.q) (hs : s'.sub = s.sub) (hw : s'.wrk = s.wrk.set i pc') (hi : WInv s.q L i pc')
    (hsec : WSec pc → WSec pc') : QInv s' L := by
  have hrw : s'.rw = s.rw := congrArg QV.rw hq
  refine ⟨by rw [hq]; exact h.base, ?_, ?_, ?_, ?_⟩
  · rw [hq, hs]; exact h.sub
  · rw [hq, hw]
    intro k x hx
    rcases get_set hx with ⟨rfl, rfl⟩ | ⟨_, hx⟩
    · exact hi
    · exact h.wrk k x hx
  · rw [hrw, hs]; exact h.sown
  · rw [hrw, hw]
    intro k hk
    obtain ⟨x, h1, h2⟩ := h.wown k hk
    by_cases e : k = i
    · subst e
      rw [hp] at h1
      simp at h1
      subst h1
      exact ⟨pc', set_self hp, hsec h2⟩
    · exact ⟨x, by rw [set_other e]; exact h1, h2⟩

theorem QInv.moveS {s s' : Sys J} {L : List Nat} (h : QInv s L) {t : Nat} {pc pc' : Sub} (hp : s.sub[t]? = some pc)
    (hq : s'.q = s.q) (hs : s'.sub = s.sub.set t pc') (hw : s'.wrk = s.wrk) (hi : SInv s.q L t pc')
    (hsec : SSec pc → SSec pc') : QInv s' L := by
  have hrw : s'.rw = s.rw := congrArg QV.rw hq
  refine ⟨by rw [hq]; exact h.base, ?_, ?_, ?_, ?_⟩
  · rw [hq, hs]
    intro k x hx
    rcases get_set hx with ⟨rfl, rfl⟩ | ⟨_, hx⟩
    · exact hi
    · exact h.sub k x hx
  · rw [hq, hw]; exact h.wrk
  · rw [hrw, hs]
    intro k hk
    obtain ⟨x, h1, h2⟩ := h.sown k hk
    by_cases e : k = t
    · subst e
      rw [hp] at h1
      simp at h1
      subst h1
      exact ⟨pc', set_self hp, hsec h2⟩
    · exact ⟨x, by rw [set_other e]; exact h1, h2⟩
  · rw [hrw, hw]; exact h.wown

/-- nobody moves -/
theorem QInv.same {s s' : Sys J} {L : List Nat} (h : QInv s L) (hq : s'.q = s.q) (hs : s'.sub = s.sub)
    (hw : s'.wrk = s.wrk) : QInv s' L := by
  have hrw : s'.rw = s.rw := congrArg QV.rw hq
  exact ⟨by rw [hq]; exact h.base, by rw [hq, hs]; exact h.sub, by rw [hq, hw]; exact h.wrk,
    by rw [hrw, hs]; exact h.sown, by rw [hrw, hw]; exact h.wown⟩

/-- a worker works on the queue while it holds, takes or releases the mutex -/
theorem QInv.ownW {s s' : Sys J} {L L' : List Nat} (h : QInv s L) {i : Nat} {pc pc' : Wrk} (hp : s.wrk[i]? = some pc)
    (hs : s'.sub = s.sub) (hw : s'.wrk = s.wrk.set i pc') (hrw : s.rw = none ∨ s.rw = some (.wrk i))
    (hrw' : s'.rw = none ∨ s'.rw = some (.wrk i)) (hb : Base s'.q L') (hi : WInv s'.q L' i pc')
    (hsec : s'.rw = some (.wrk i) → WSec pc')
    (hhs : ∀ p c t, s.heap p = some c → c.own = .sub t → s'.heap p = some c)
    (hhw : ∀ p c k id, s.heap p = some c → c.own = .wrk k id → k ≠ i → s'.heap p = some c)
    (hd : s.dequeued <+: s'.dequeued) : QInv s' L' := by
  have hne : ∀ t, s.rw ≠ some (.sub t) := by intro t; rcases hrw with h | h <;> simp [h]
  have hne' : ∀ t, s'.rw ≠ some (.sub t) := by intro t; rcases hrw' with h | h <;> simp [h]
  refine ⟨hb, ?_, ?_, ?_, ?_⟩
  · rw [hs]
    exact fun t x hx => (h.sub t x hx).other (hne t) (fun p c h1 h2 => hhs p c t h1 h2)
  · rw [hw]
    intro k x hx
    rcases get_set hx with ⟨rfl, rfl⟩ | ⟨hk, hx⟩
    · exact hi
    · refine (h.wrk k x hx).other ?_ (fun p c id h1 h2 => hhw p c k id h1 h2 hk) hd
      show s.rw ≠ _
      rcases hrw with h | h <;> simp [h]; exact fun e => hk e.symm
  · exact fun t ht => absurd ht (hne' t)
  · intro k hk
    rcases hrw' with h' | h'
    · rw [h'] at hk; simp at hk
    · rw [h'] at hk; simp at hk; subst hk
      exact ⟨pc', by rw [hw]; exact set_self hp, hsec h'⟩

theorem QInv.ownS {s s' : Sys J} {L L' : List Nat} (h : QInv s L) {t : Nat} {pc pc' : Sub} (hp : s.sub[t]? = some pc)
    (hs : s'.sub = s.sub.set t pc') (hw : s'.wrk = s.wrk) (hrw : s.rw = none ∨ s.rw = some (.sub t))
    (hrw' : s'.rw = none ∨ s'.rw = some (.sub t)) (hb : Base s'.q L') (hi : SInv s'.q L' t pc')
    (hsec : s'.rw = some (.sub t) → SSec pc')
    (hhs : ∀ p c k, s.heap p = some c → c.own = .sub k → k ≠ t → s'.heap p = some c)
    (hhw : ∀ p c k id, s.heap p = some c → c.own = .wrk k id → s'.heap p = some c)
    (hd : s.dequeued <+: s'.dequeued) : QInv s' L' := by
  have hne : ∀ t, s.rw ≠ some (.wrk t) := by intro t; rcases hrw with h | h <;> simp [h]
  have hne' : ∀ t, s'.rw ≠ some (.wrk t) := by intro t; rcases hrw' with h | h <;> simp [h]
  refine ⟨hb, ?_, ?_, ?_, ?_⟩
  · rw [hs]
    intro k x hx
    rcases get_set hx with ⟨rfl, rfl⟩ | ⟨hk, hx⟩
    · exact hi
    · refine (h.sub k x hx).other ?_ (fun p c h1 h2 => hhs p c k h1 h2 hk)
      show s.rw ≠ _
      rcases hrw with h | h <;> simp [h]; exact fun e => hk e.symm
  · rw [hw]
    exact fun k x hx => (h.wrk k x hx).other (hne k) (fun p c id h1 h2 => hhw p c k id h1 h2) hd
  · intro k hk
    rcases hrw' with h' | h'
    · rw [h'] at hk; simp at hk
    · rw [h'] at hk; simp at hk; subst hk
      exact ⟨pc', by rw [hs]; exact set_self hp, hsec h'⟩
  · exact fun t ht => absurd ht (hne' t)

theorem getLast?_snoc' (L : List Nat) (p : Nat) : (L ++ [p]).getLast? = some p := by simp

theorem Cells.mem_queue {q : QV J} {L : List Nat} {tl : Option Nat} (h : Cells q L tl) {p : Nat} (hp : p ∈ L) :
    ∃ c id, q.heap p = some c ∧ c.own = .queue id := by
  obtain ⟨j, hj⟩ := List.mem_iff_getElem?.1 hp
  obtain ⟨c, h1, h2, _⟩ := h j p hj
  exact ⟨c, _, h1, h2⟩

theorem Cells.inj {q : QV J} {L : List Nat} {tl : Option Nat} (h : Cells q L tl) {j k p : Nat} (hj : L[j]? = some p)
    (hk : L[k]? = some p) : j = k := by
  obtain ⟨c, h1, h2, _⟩ := h j p hj
  obtain ⟨c', h1', h2', _⟩ := h k p hk
  rw [h1] at h1'
  simp at h1'
  subst h1'
  rw [h2] at h2'
  simp at h2'
  exact h2'

end Verif.Thpool
