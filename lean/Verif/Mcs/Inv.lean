import Verif.Mcs.Model

/-! # The invariant of the MCS lock -/
namespace Verif.Mcs

/-- `b` directly follows `a` in `q`. -/
def Adj (q : List Nat) (a b : Nat) : Prop := ∃ l r, q = l ++ a :: b :: r

theorem Adj.cons_iff {h : Nat} {t : List Nat} {a b : Nat} :
    Adj (h :: t) a b ↔ (a = h ∧ t.head? = some b) ∨ Adj t a b := by
  constructor
  · rintro ⟨l, r, e⟩
    cases l with
    | nil => simp only [List.nil_append, List.cons.injEq] at e; left; simp [e.1, e.2]
    | cons x l => simp only [List.cons_append, List.cons.injEq] at e; right; exact ⟨l, r, e.2⟩
  · rintro (⟨rfl, e⟩ | ⟨l, r, e⟩)
    · cases t with
      | nil => simp at e
      | cons y t => simp only [List.head?_cons, Option.some.injEq] at e; subst e; exact ⟨[], t, rfl⟩
    · exact ⟨h :: l, r, by simp [e]⟩

theorem Adj.nil {a b : Nat} : ¬ Adj [] a b := by rintro ⟨l, r, e⟩; simp at e

theorem Adj.mem {q : List Nat} {a b : Nat} (h : Adj q a b) : a ∈ q ∧ b ∈ q := by
  obtain ⟨l, r, rfl⟩ := h; simp

theorem Adj.snoc_iff {q : List Nat} {p a b : Nat} :
    Adj (q ++ [p]) a b ↔ Adj q a b ∨ (q.getLast? = some a ∧ b = p) := by
  induction q with
  | nil => simp [Adj.cons_iff, Adj.nil]
  | cons h t ih =>
    rw [List.cons_append, Adj.cons_iff, Adj.cons_iff, ih]
    cases t with
    | nil => simp [Adj.nil]; grind
    | cons y t => simp [List.getLast?_cons_cons]; grind

theorem Adj.uniq_right {q : List Nat} (hn : q.Nodup) {a b c : Nat} (h1 : Adj q a b) (h2 : Adj q a c) :
    b = c := by
  induction q with
  | nil => exact (Adj.nil h1).elim
  | cons h t ih =>
    have := @Adj.mem t
    rw [Adj.cons_iff] at h1 h2
    grind

theorem Adj.uniq_left {q : List Nat} (hn : q.Nodup) {a b c : Nat} (h1 : Adj q a c) (h2 : Adj q b c) :
    a = b := by
  induction q with
  | nil => exact (Adj.nil h1).elim
  | cons h t ih =>
    have := @Adj.mem t
    have hh : ∀ x : Nat, t.head? = some x → x ∈ t := fun x hx => List.mem_of_head? hx
    have hx : ∀ x y : Nat, t.head? = some x → Adj t y x → False := by
      intro x y e hy
      cases t with
      | nil => simp at e
      | cons z t =>
        simp at e; subst e
        rw [Adj.cons_iff] at hy
        simp at hn
        rcases hy with ⟨_, e⟩ | hy
        · exact hn.2.1 (List.mem_of_head? e)
        · exact hn.2.1 hy.mem.2
    rw [Adj.cons_iff] at h1 h2
    grind

theorem Adj.not_head {q : List Nat} (hn : q.Nodup) {a b : Nat} (h1 : Adj q a b) :
    q.head? ≠ some b := by
  cases q with
  | nil => exact (Adj.nil h1).elim
  | cons h t =>
    intro e; simp at e; subst e
    rw [Adj.cons_iff] at h1
    rcases h1 with ⟨_, e⟩ | h1
    · exact (List.nodup_cons.1 hn).1 (List.mem_of_head? e)
    · exact (List.nodup_cons.1 hn).1 h1.mem.2

theorem Adj.not_last {q : List Nat} (hn : q.Nodup) {a b : Nat} (h1 : Adj q a b) :
    q.getLast? ≠ some a := by
  induction q with
  | nil => exact (Adj.nil h1).elim
  | cons h t ih =>
    rw [Adj.cons_iff] at h1
    cases t with
    | nil => simp [Adj.nil] at h1
    | cons y t =>
      rw [List.getLast?_cons_cons]
      rcases h1 with ⟨rfl, _⟩ | h1
      · intro e; exact (List.nodup_cons.1 hn).1 (List.mem_of_getLast? e)
      · exact ih (List.nodup_cons.1 hn).2 h1

theorem Adj.ne {q : List Nat} (hn : q.Nodup) {a b : Nat} (h1 : Adj q a b) : a ≠ b := by
  obtain ⟨l, r, rfl⟩ := h1
  rintro rfl
  simp [List.nodup_append] at hn

theorem Adj.of_mem {q : List Nat} {a : Nat} (h : a ∈ q) :
    q.getLast? = some a ∨ ∃ b, Adj q a b := by
  induction q with
  | nil => simp at h
  | cons x t ih =>
    simp only [List.mem_cons] at h
    cases t with
    | nil => simp at h; simp [h]
    | cons y t =>
      rw [List.getLast?_cons_cons]
      rcases h with rfl | h
      · right; exact ⟨y, Adj.cons_iff.2 (Or.inl (by simp))⟩
      · rcases ih h with e | ⟨b, e⟩
        · exact Or.inl e
        · exact Or.inr ⟨b, Adj.cons_iff.2 (Or.inr e)⟩

theorem Adj.of_mem_head {q : List Nat} {a : Nat} (h : a ∈ q) :
    q.head? = some a ∨ ∃ b, Adj q b a := by
  induction q with
  | nil => simp at h
  | cons x t ih =>
    simp only [List.mem_cons] at h
    rcases h with rfl | h
    · left; simp
    · right
      rcases ih h with e | ⟨b, e⟩
      · exact ⟨x, Adj.cons_iff.2 (Or.inl ⟨rfl, e⟩)⟩
      · exact ⟨b, Adj.cons_iff.2 (Or.inr e)⟩

/-- The calls whose node is in the queue. -/
def InQ (c : Pc) : Prop := c ≠ .gone ∧ c ≠ .a0 ∧ c ≠ .ub ∧ ∀ n, c ≠ .r6 n

/-- The head of the queue owns the lock (or is about to give it away). -/
def Own (c : Pc) : Prop :=
  c = .hold ∨ c = .r0 ∨ c = .r1 ∨ c = .r2 ∨ c = .r3 ∨ c = .r3w ∨ c = .r4 ∨ ∃ n, c = .r5 n

/-- A call that is still waiting. -/
def Waits (c : Pc) : Prop :=
  (∃ r, c = .a1 r) ∨ (∃ r, c = .a2 r) ∨ (∃ r, c = .a2e r) ∨ c = .w0 ∨ c = .w1 ∨ c = .w2

/-- `nextFlag` not set yet. -/
def Unset (n : Node) : Prop :=
  (n.nf = .zero ∧ n.pc ≠ .r3w ∧ n.pc ≠ .r4) ∨ (n.nf = .ev ∧ n.pc = .r3w ∧ n.ne = false)

/-- State of the head of the queue. -/
structure HeadOK (s : Sys) (h : Nat) : Prop where
  a1 : ∀ r, (s.nd h).pc ≠ .a1 r
  a2e : ∀ r, (s.nd h).pc ≠ .a2e r
  a2 : ∀ r, (s.nd h).pc = .a2 r → (s.nd r).pc = .gone ∧ (s.nd r).nf = .zero
  rf : (∃ r, (s.nd h).pc = .a2 r) ∨ (s.nd h).pc = .w0 ∨ (s.nd h).pc = .w1 → (s.nd h).rf = .one
  w2 : (s.nd h).pc = .w2 → (s.nd h).rf = .ev ∧ ((s.nd h).re = true ∨ ∃ k, (s.nd k).pc = .r6 h)

/-- State of two neighbours in the queue. -/
structure AdjOK (s : Sys) (r p : Nat) : Prop where
  waits : Waits (s.nd p).pc
  pred1 : ∀ r', (s.nd p).pc = .a1 r' → r' = r
  pred2 : ∀ r', (s.nd p).pc = .a2 r' → r' = r
  pred3 : ∀ r', (s.nd p).pc = .a2e r' → r' = r
  rf : (s.nd p).pc ≠ .w2 → (s.nd p).rf = .zero
  w2 : (s.nd p).pc = .w2 → (s.nd p).rf = .ev
  re : (s.nd p).re = false
  link1 : (∃ r', (s.nd p).pc = .a1 r') → (s.nd r).next = none ∧ Unset (s.nd r)
  link2 : (∀ r', (s.nd p).pc ≠ .a1 r') → (s.nd r).next = some p
  link3 : (∃ r', (s.nd p).pc = .a2 r') → Unset (s.nd r)
  link4 : (∃ r', (s.nd p).pc = .a2e r') → (s.nd r).nf = .ev ∧ (s.nd r).pc = .r3w ∧ (s.nd r).ne = false
  link5 : (∀ r', (s.nd p).pc ≠ .a1 r') → (∀ r', (s.nd p).pc ≠ .a2 r') → (∀ r', (s.nd p).pc ≠ .a2e r') →
    (s.nd r).nf = .one ∧ (s.nd r).pc ≠ .r3w ∨
      (s.nd r).nf = .ev ∧ ((s.nd r).pc = .r3w ∧ (s.nd r).ne = true ∨ (s.nd r).pc = .r4 ∨ ∃ n, (s.nd r).pc = .r5 n)

theorem AdjOK.congr {s s' : Sys} {r p : Nat} (h : AdjOK s r p) (hr : s'.nd r = s.nd r)
    (hp : s'.nd p = s.nd p) : AdjOK s' r p := by
  obtain ⟨c1, c2, c3, c4, c5, c6, c7, c8, c9, c10, c11, c12⟩ := h
  constructor <;> (simp only [hr, hp]; assumption)

/-- State of the last node of the queue. -/
structure LastOK (s : Sys) (p : Nat) : Prop where
  next : (s.nd p).next = none
  nf : (s.nd p).nf = .zero
  r2 : (s.nd p).pc ≠ .r2
  r3 : (s.nd p).pc ≠ .r3
  r3w : (s.nd p).pc ≠ .r3w
  r4 : (s.nd p).pc ≠ .r4
  r5 : ∀ n, (s.nd p).pc ≠ .r5 n

/-- The invariant: `q` is the queue, `rm` the calls that have been served and left it. -/
structure Inv (s : Sys) (q rm : List Nat) : Prop where
  nodup : q.Nodup
  lock : s.lock = q.getLast?
  mem : ∀ p, p ∈ q ↔ InQ (s.nd p).pc
  head : ∀ h, q.head? = some h → HeadOK s h
  adj : ∀ r p, Adj q r p → AdjOK s r p
  last : ∀ p, q.getLast? = some p → LastOK s p
  own : ∀ h, q.head? = some h → Own (s.nd h).pc → ∀ n, (s.nd h).pc = .r5 n → (s.nd h).next = some n
  r6 : ∀ k n, (s.nd k).pc = .r6 n → q.head? = some n ∧ (s.nd n).pc = .w2 ∧ (s.nd n).re = false
  r6u : ∀ k k' n, (s.nd k).pc = .r6 n → (s.nd k').pc = .r6 n → k = k'
  a0 : ∀ p, (s.nd p).pc = .a0 → (s.nd p).next = none ∧ (s.nd p).nf = .zero ∧ (s.nd p).rf = .zero ∧
    (s.nd p).ne = false ∧ (s.nd p).re = false
  ub : ∀ p, (s.nd p).pc ≠ .ub
  bad : s.bad = false
  arr : s.arr = rm ++ q
  entY : ∀ h, q.head? = some h → Own (s.nd h).pc → s.ent = rm ++ [h]
  entN : (∀ h, q.head? = some h → ¬ Own (s.nd h).pc) → s.ent = rm

end Verif.Mcs
