/-!
# Calls bracketed by a mutex

Several modules of the library (auto_cover_buf, the hash map, mplite) take a user supplied lock: each call does
`acquire`, its work on the shared structure, `release`.  The work is a program that touches the shared state
in as many pieces as one likes; other threads run between two pieces.  The theorem at the end: whatever the pieces
are and however the threads are interleaved, the calls have the effects and results of a sequential history, in which every call
takes place between its invocation and its return (linearizability), and a call can do something undefined only
if it would also do so in that sequential history.
-/
namespace Verif.Locked

/-- A program working on a shared state.  A piece reads the state (the continuation depends on it) and changes
it; `none`: undefined behaviour or an abort. -/
inductive Prog (σ α : Type) where
  | ret (a : α)
  | act (f : σ → Option σ) (k : σ → Prog σ α)

/-- The program runs alone. -/
def exec {σ α : Type} : Prog σ α → σ → Option (σ × α)
  | .ret a, s => some (s, a)
  | .act f k, s => (f s).bind fun s' => exec (k s) s'

/-- One program after the other. -/
def Prog.bind {σ α β : Type} : Prog σ α → (α → Prog σ β) → Prog σ β
  | .ret a, g => g a
  | .act f k, g => .act f fun s => (k s).bind g

instance {σ : Type} : Monad (Prog σ) where
  pure := .ret
  bind := Prog.bind

/-- Read something of the shared state. -/
def read {σ α : Type} (g : σ → α) : Prog σ α := .act some fun s => .ret (g s)

/-- A read that may be undefined. -/
def tryRead {σ α : Type} [Inhabited α] (g : σ → Option α) : Prog σ α :=
  .act (fun s => (g s).map fun _ => s) fun s => .ret ((g s).getD default)

/-- Change the shared state. -/
def change {σ : Type} (f : σ → Option σ) : Prog σ Unit := .act f fun _ => .ret ()

/-- Abort unless. -/
def check {σ : Type} (b : Bool) : Prog σ Unit := .act (fun s => if b then some s else none) fun _ => .ret ()

/-- What can be observed: invocations and returns; and, between them, the moment at which a call counts. -/
inductive Ev (Op Out : Type) where
  | call (i : Nat) (op : Op)
  | point (i : Nat) (op : Op) (o : Out)
  | ret (i : Nat) (o : Out)

/-- A thread. -/
inductive Th (σ Op Out : Type) where
  | idle
  /-- before or in `acquire` -/
  | wants (op : Op)
  /-- has the lock -/
  | inside (op : Op) (p : Prog σ Out)
  /-- after `release`, before the return -/
  | left (o : Out)

structure Sys (σ Op Out : Type) where
  st : σ
  ths : List (Th σ Op Out)
  lock : Option Nat
  trace : List (Ev Op Out)

variable {σ Op Out : Type}

/-- One step; `none`: something undefined happened.  `body` is the code between `acquire` and `release`. -/
inductive Step (body : Op → Prog σ Out) (x : Sys σ Op Out) : Option (Sys σ Op Out) → Prop
  | call (i : Nat) (op : Op) (h : x.ths[i]? = some .idle) :
      Step body x (some { x with
        ths := x.ths.set i (.wants op)
        trace := x.trace ++ [.call i op] })
  | acquire (i : Nat) (op : Op) (h : x.ths[i]? = some (.wants op)) (hl : x.lock = none) :
      Step body x (some { x with
        ths := x.ths.set i (.inside op (body op))
        lock := some i })
  | piece (i : Nat) (op : Op) (f : σ → Option σ) (k : σ → Prog σ Out) (s : σ)
      (h : x.ths[i]? = some (.inside op (.act f k))) (hf : f x.st = some s) :
      Step body x (some { x with
        st := s
        ths := x.ths.set i (.inside op (k x.st)) })
  | fault (i : Nat) (op : Op) (f : σ → Option σ) (k : σ → Prog σ Out)
      (h : x.ths[i]? = some (.inside op (.act f k))) (hf : f x.st = none) : Step body x none
  | release (i : Nat) (op : Op) (o : Out) (h : x.ths[i]? = some (.inside op (.ret o))) :
      Step body x (some { x with
        ths := x.ths.set i (.left o)
        lock := none
        trace := x.trace ++ [.point i op o] })
  | ret (i : Nat) (o : Out) (h : x.ths[i]? = some (.left o)) :
      Step body x (some { x with
        ths := x.ths.set i .idle
        trace := x.trace ++ [.ret i o] })

/-- States reached from shared state `s0` with `n` threads. -/
inductive Reach (body : Op → Prog σ Out) (s0 : σ) (n : Nat) : Sys σ Op Out → Prop
  | start : Reach body s0 n ⟨s0, List.replicate n .idle, none, []⟩
  | step (x y : Sys σ Op Out) (h : Reach body s0 n x) (hs : Step body x (some y)) : Reach body s0 n y

/-! ### Specification -/

/-- The calls in the order of their points, with their results. -/
def points : List (Ev Op Out) → List (Op × Out)
  | [] => []
  | .point _ op o :: es => (op, o) :: points es
  | _ :: es => points es

/-- One after the other. -/
def seqRun (step : σ → Op → Option (σ × Out)) : σ → List Op → Option (σ × List Out)
  | s, [] => some (s, [])
  | s, op :: ops => (step s op).bind fun r => (seqRun step r.1 ops).map fun t => (t.1, r.2 :: t.2)

/-- What thread `i` did. -/
def own (i : Nat) : List (Ev Op Out) → List (Ev Op Out)
  | [] => []
  | .call j op :: es => if j = i then .call j op :: own i es else own i es
  | .point j op o :: es => if j = i then .point j op o :: own i es else own i es
  | .ret j o :: es => if j = i then .ret j o :: own i es else own i es

/-- The history of thread `i`: invocation, point, return, again and again; each with the same operation and the
same result; the last call may be unfinished. -/
inductive Calls (i : Nat) : List (Ev Op Out) → Prop
  | nil : Calls i []
  | called (op : Op) : Calls i [.call i op]
  | counted (op : Op) (o : Out) : Calls i [.call i op, .point i op o]
  | whole (op : Op) (o : Out) (es : List (Ev Op Out)) (h : Calls i es) :
      Calls i (.call i op :: .point i op o :: .ret i o :: es)

/-! ### Programs -/

theorem exec_bind {σ α β : Type} (p : Prog σ α) (g : α → Prog σ β) (s : σ) :
    exec (p >>= g) s = (exec p s).bind fun r => exec (g r.2) r.1 := by
  show exec (p.bind g) s = _
  induction p generalizing s with
  | ret a => rfl
  | act f k ih =>
    simp only [Prog.bind, exec]
    cases f s with
    | none => rfl
    | some s' => exact ih s s'

theorem exec_pure {σ α : Type} (a : α) (s : σ) : exec (pure a : Prog σ α) s = some (s, a) := rfl
theorem exec_read {σ α : Type} (g : σ → α) (s : σ) : exec (read g) s = some (s, g s) := rfl
theorem exec_tryRead {σ α : Type} [Inhabited α] (g : σ → Option α) (s : σ) :
    exec (tryRead g) s = (g s).map fun a => (s, a) := by
  simp only [tryRead, exec]
  cases g s <;> rfl
theorem exec_change {σ : Type} (f : σ → Option σ) (s : σ) : exec (change f) s = (f s).map fun s' => (s', ()) := by
  simp only [change, exec]
  cases f s <;> rfl
theorem exec_check {σ : Type} (b : Bool) (s : σ) : exec (check b) s = if b then some (s, ()) else none := by
  simp only [check, exec]
  cases b <;> rfl

/-! ### Proof -/

theorem points_append (a b : List (Ev Op Out)) : points (a ++ b) = points a ++ points b := by
  induction a with
  | nil => rfl
  | cons e es ih => cases e <;> simp [points, ih]

theorem own_append (i : Nat) (a b : List (Ev Op Out)) : own i (a ++ b) = own i a ++ own i b := by
  induction a with
  | nil => rfl
  | cons e es ih => cases e <;> simp only [List.cons_append, own, ih] <;> split <;> rfl

theorem seqRun_snoc (step : σ → Op → Option (σ × Out)) (ops : List Op) (op : Op) : ∀ (s s' s'' : σ) (os : List Out) (o : Out),
    seqRun step s ops = some (s', os) → step s' op = some (s'', o) →
    seqRun step s (ops ++ [op]) = some (s'', os ++ [o]) := by
  induction ops with
  | nil =>
    intro s s' s'' os o h1 h2
    simp only [seqRun, Option.some.injEq, Prod.mk.injEq] at h1
    obtain ⟨rfl, rfl⟩ := h1
    simp [seqRun, h2]
  | cons x xs ih =>
    intro s s' s'' os o h1 h2
    simp only [seqRun, Option.bind_eq_some_iff, Option.map_eq_some_iff] at h1
    obtain ⟨r, e1, t, e2, e3⟩ := h1
    obtain ⟨rfl, rfl⟩ := Prod.mk.inj e3
    have := ih _ _ _ _ _ e2 h2
    simp [seqRun, e1, this]

/-- The state of thread `i` fits the end of its history. -/
def Fits (i : Nat) : Th σ Op Out → List (Ev Op Out) → Prop
  | .idle, es => ∀ fs, Calls i fs → Calls i (es ++ fs)
  | .wants op, es => ∃ ds, es = ds ++ [.call i op] ∧ ∀ fs, Calls i fs → Calls i (ds ++ fs)
  | .inside op _, es => ∃ ds, es = ds ++ [.call i op] ∧ ∀ fs, Calls i fs → Calls i (ds ++ fs)
  | .left o, es => ∃ op ds, es = ds ++ [.call i op, .point i op o] ∧ ∀ fs, Calls i fs → Calls i (ds ++ fs)

theorem Fits.calls {i : Nat} {t : Th σ Op Out} {es : List (Ev Op Out)} (h : Fits i t es) : Calls i es := by
  cases t with
  | idle =>
    have := h [] .nil
    rwa [List.append_nil] at this
  | wants op => obtain ⟨ds, rfl, h⟩ := h; exact h _ (.called op)
  | inside op p => obtain ⟨ds, rfl, h⟩ := h; exact h _ (.called op)
  | left o => obtain ⟨op, ds, rfl, h⟩ := h; exact h _ (.counted op o)

structure Inv (step : σ → Op → Option (σ × Out)) (s0 : σ) (x : Sys σ Op Out) : Prop where
  seq : ∃ s, seqRun step s0 ((points x.trace).map (·.1)) = some (s, (points x.trace).map (·.2)) ∧
    (x.lock = none → x.st = s) ∧
    (∀ i, x.lock = some i → ∃ op p, x.ths[i]? = some (.inside op p)) ∧
    ∀ i op p, x.ths[i]? = some (.inside op p) → x.lock = some i ∧ exec p x.st = step s op
  fits : ∀ i t, x.ths[i]? = some t → Fits i t (own i x.trace)

theorem own_call (i j : Nat) (op : Op) (es : List (Ev Op Out)) :
    own i (es ++ [.call j op]) = if j = i then own i es ++ [.call j op] else own i es := by
  rw [own_append]; simp only [own]; split <;> simp
theorem own_point (i j : Nat) (op : Op) (o : Out) (es : List (Ev Op Out)) :
    own i (es ++ [.point j op o]) = if j = i then own i es ++ [.point j op o] else own i es := by
  rw [own_append]; simp only [own]; split <;> simp
theorem own_ret (i j : Nat) (o : Out) (es : List (Ev Op Out)) :
    own i (es ++ [.ret j o]) = if j = i then own i es ++ [.ret j o] else own i es := by
  rw [own_append]; simp only [own]; split <;> simp

theorem set_cases {l : List (Th σ Op Out)} {i j : Nat} {t u : Th σ Op Out} (h : (l.set i t)[j]? = some u) :
    (i = j ∧ u = t) ∨ (i ≠ j ∧ l[j]? = some u) := by
  rw [List.getElem?_set] at h
  split at h
  · rename_i e
    split at h
    · exact .inl ⟨e, (Option.some.inj h).symm⟩
    · cases h
  · rename_i e
    exact .inr ⟨e, h⟩

theorem get_set {l : List (Th σ Op Out)} {i j : Nat} {t u : Th σ Op Out} (h : i ≠ j) (hj : l[j]? = some u) :
    (l.set i t)[j]? = some u := by
  rw [List.getElem?_set, if_neg h]; exact hj

theorem Inv.step {body : Op → Prog σ Out} {step : σ → Op → Option (σ × Out)} {s0 : σ}
    (hb : ∀ op s, exec (body op) s = step s op) {x y : Sys σ Op Out} (h : Inv step s0 x) (hs : Step body x (some y)) :
    Inv step s0 y := by
  obtain ⟨⟨s, h1, h2, h3, h4⟩, hf⟩ := h
  cases hs with
  | call i op hi =>
    refine ⟨⟨s, by simpa [points_append, points] using h1, h2, ?_, ?_⟩, ?_⟩
    · intro j hj
      obtain ⟨op', p, e⟩ := h3 j hj
      by_cases e' : i = j
      · subst e'; rw [hi] at e; cases e
      · exact ⟨op', p, get_set e' e⟩
    · intro j op' p hj
      rcases set_cases hj with ⟨_, e⟩ | ⟨_, e⟩
      · cases e
      · exact h4 j op' p e
    · intro j t hj
      simp only [own_call]
      rcases set_cases hj with ⟨rfl, rfl⟩ | ⟨e, hj⟩
      · rw [if_pos rfl]
        exact ⟨_, rfl, hf i _ hi⟩
      · rw [if_neg e]; exact hf j t hj
  | acquire i op hi hl =>
    have hlt : i < x.ths.length := (List.getElem?_eq_some_iff.mp hi).1
    refine ⟨⟨s, h1, fun e => (by cases e), ?_, ?_⟩, ?_⟩
    · intro j hj
      obtain rfl := Option.some.inj hj
      exact ⟨op, body op, List.getElem?_set_self hlt⟩
    · intro j op' p hj
      rcases set_cases hj with ⟨rfl, e⟩ | ⟨_, e⟩
      · obtain ⟨rfl, rfl⟩ := Th.inside.inj e
        refine ⟨rfl, ?_⟩
        show exec (body op') x.st = _
        rw [hb, h2 hl]
      · have := (h4 j op' p e).1
        rw [hl] at this; cases this
    · intro j t hj
      rcases set_cases hj with ⟨rfl, rfl⟩ | ⟨e, hj⟩
      · obtain ⟨ds, e1, e2⟩ := hf i _ hi
        exact ⟨ds, e1, e2⟩
      · exact hf j t hj
  | piece i op f k s' hi hfs =>
    have hlt : i < x.ths.length := (List.getElem?_eq_some_iff.mp hi).1
    obtain ⟨hl, he⟩ := h4 i _ _ hi
    refine ⟨⟨s, h1, ?_, ?_, ?_⟩, ?_⟩
    · intro e
      have : x.lock = none := e
      rw [hl] at this; cases this
    · intro j hj
      have : x.lock = some j := hj
      rw [hl] at this
      obtain rfl := Option.some.inj this
      exact ⟨op, _, List.getElem?_set_self hlt⟩
    · intro j op' p hj
      rcases set_cases hj with ⟨rfl, e⟩ | ⟨hne, e⟩
      · obtain ⟨rfl, rfl⟩ := Th.inside.inj e
        refine ⟨hl, ?_⟩
        rw [← he]
        simp only [exec, hfs, Option.bind_some]
      · have := (h4 j op' p e).1
        rw [hl] at this
        exact absurd (Option.some.inj this) hne
    · intro j t hj
      rcases set_cases hj with ⟨rfl, rfl⟩ | ⟨e, hj⟩
      · obtain ⟨ds, e1, e2⟩ := hf i _ hi
        exact ⟨ds, e1, e2⟩
      · exact hf j t hj
  | release i op o hi =>
    obtain ⟨hl, he⟩ := h4 i _ _ hi
    refine ⟨⟨x.st, ?_, fun _ => rfl, fun j e => (by cases e), ?_⟩, ?_⟩
    · simp only [points_append, points, List.map_append, List.map_cons, List.map_nil]
      exact seqRun_snoc step _ op s0 s x.st _ o h1 he.symm
    · intro j op' p hj
      rcases set_cases hj with ⟨_, e⟩ | ⟨hne, e⟩
      · cases e
      · have := (h4 j op' p e).1
        rw [hl] at this
        exact absurd (Option.some.inj this) hne
    · intro j t hj
      simp only [own_point]
      rcases set_cases hj with ⟨rfl, rfl⟩ | ⟨e, hj⟩
      · rw [if_pos rfl]
        obtain ⟨ds, e1, e2⟩ := hf i _ hi
        exact ⟨op, ds, by rw [e1, List.append_assoc]; rfl, e2⟩
      · rw [if_neg e]; exact hf j t hj
  | ret i o hi =>
    refine ⟨⟨s, by simpa [points_append, points] using h1, h2, ?_, ?_⟩, ?_⟩
    · intro j hj
      obtain ⟨op', p, e⟩ := h3 j hj
      by_cases e' : i = j
      · subst e'; rw [hi] at e; cases e
      · exact ⟨op', p, get_set e' e⟩
    · intro j op' p hj
      rcases set_cases hj with ⟨_, e⟩ | ⟨_, e⟩
      · cases e
      · exact h4 j op' p e
    · intro j t hj
      simp only [own_ret]
      rcases set_cases hj with ⟨rfl, rfl⟩ | ⟨e, hj⟩
      · rw [if_pos rfl]
        obtain ⟨op, ds, e1, e2⟩ := hf i _ hi
        rw [e1]
        intro fs hfs
        have := e2 _ (.whole op o fs hfs)
        simpa using this
      · rw [if_neg e]; exact hf j t hj

theorem Reach.inv {body : Op → Prog σ Out} {step : σ → Op → Option (σ × Out)} {s0 : σ} {n : Nat}
    (hb : ∀ op s, exec (body op) s = step s op) {x : Sys σ Op Out} (h : Reach body s0 n x) : Inv step s0 x := by
  induction h with
  | start =>
    refine ⟨⟨s0, rfl, fun _ => rfl, fun _ e => (by cases e), ?_⟩, ?_⟩
    · intro i op p hi
      have := (List.mem_replicate.mp (List.mem_of_getElem? hi)).2
      cases this
    · intro i t hi
      have := (List.mem_replicate.mp (List.mem_of_getElem? hi)).2
      subst this
      intro fs hfs
      exact hfs
  | step x y _ hs ih => exact ih.step hb hs

/-! ### Results -/

/-- Linearizability: the calls, in the order of their points, are a sequential run from the initial state with the
observed results; each thread's points lie between its invocations and returns; and whenever the lock is free the
shared state is the one of that sequential run. -/
theorem linearizable {body : Op → Prog σ Out} {step : σ → Op → Option (σ × Out)} {s0 : σ} {n : Nat}
    (hb : ∀ op s, exec (body op) s = step s op) {x : Sys σ Op Out} (h : Reach body s0 n x) :
    (∃ s, seqRun step s0 ((points x.trace).map (·.1)) = some (s, (points x.trace).map (·.2)) ∧ (x.lock = none → x.st = s)) ∧
    ∀ i, i < x.ths.length → Calls i (own i x.trace) := by
  have hi := h.inv hb
  obtain ⟨s, h1, h2, _⟩ := hi.seq
  refine ⟨⟨s, h1, h2⟩, fun i hlt => ?_⟩
  exact (hi.fits i _ (List.getElem?_eq_getElem hlt)).calls

/-- A fault is a fault of the sequential history: the call in progress has no outcome there. -/
theorem fault_sequential {body : Op → Prog σ Out} {step : σ → Op → Option (σ × Out)} {s0 : σ} {n : Nat}
    (hb : ∀ op s, exec (body op) s = step s op) {x : Sys σ Op Out} (h : Reach body s0 n x) (hs : Step body x none) :
    ∃ (i : Nat) (op : Op) (p : Prog σ Out), x.ths[i]? = some (Th.inside op p) ∧ seqRun step s0 ((points x.trace).map (·.1) ++ [op]) = none := by
  have hi := h.inv hb
  obtain ⟨s, h1, h2, h3, h4⟩ := hi.seq
  cases hs with
  | fault i op f k hth hf =>
    refine ⟨i, op, _, hth, ?_⟩
    have he := (h4 i _ _ hth).2
    simp only [exec, hf, Option.bind_none] at he
    have key : ∀ (ops : List Op) (a b : σ) (os : List Out), seqRun step a ops = some (b, os) → step b op = none →
        seqRun step a (ops ++ [op]) = none := by
      intro ops
      induction ops with
      | nil =>
        intro a b os e1 e2
        simp only [seqRun, Option.some.injEq, Prod.mk.injEq] at e1
        obtain ⟨rfl, rfl⟩ := e1
        simp [seqRun, e2]
      | cons y ys ih =>
        intro a b os e1 e2
        simp only [seqRun, Option.bind_eq_some_iff, Option.map_eq_some_iff] at e1
        obtain ⟨r, e3, t, e4, e5⟩ := e1
        obtain ⟨rfl, rfl⟩ := Prod.mk.inj e5
        simp [seqRun, e3, ih _ _ _ e4 e2]
    exact key _ _ _ _ h1 he.symm

/-- No deadlock: unless every thread is outside of calls, somebody can go on. -/
theorem progress {body : Op → Prog σ Out} {step : σ → Op → Option (σ × Out)} {s0 : σ} {n : Nat}
    (hb : ∀ op s, exec (body op) s = step s op) {x : Sys σ Op Out} (h : Reach body s0 n x) {i : Nat}
    {t : Th σ Op Out} (hi : x.ths[i]? = some t) (ht : t ≠ .idle) :
    ∃ (j : Nat) (u : Th σ Op Out) (r : Option (Sys σ Op Out)), x.ths[j]? = some u ∧ u ≠ Th.idle ∧ Step body x r ∧ ∀ y, r = some y → ∃ u', y.ths = x.ths.set j u' := by
  have inside : ∀ (j : Nat) (op : Op) (p : Prog σ Out), x.ths[j]? = some (Th.inside op p) →
      ∃ (j : Nat) (u : Th σ Op Out) (r : Option (Sys σ Op Out)), x.ths[j]? = some u ∧ u ≠ Th.idle ∧ Step body x r ∧ ∀ y, r = some y → ∃ u', y.ths = x.ths.set j u' := by
    intro j op p hj
    cases p with
    | ret o => exact ⟨j, _, _, hj, (by intro e; cases e), .release j op o hj, fun y e => by cases e; exact ⟨_, rfl⟩⟩
    | act f k =>
      cases e : f x.st with
      | none => exact ⟨j, _, _, hj, (by intro e; cases e), .fault j op f k hj e, fun y e => by cases e⟩
      | some s => exact ⟨j, _, _, hj, (by intro e; cases e), .piece j op f k s hj e, fun y e => by cases e; exact ⟨_, rfl⟩⟩
  cases t with
  | idle => exact absurd rfl ht
  | inside op p => exact inside i op p hi
  | left o => exact ⟨i, _, _, hi, ht, .ret i o hi, fun y e => by cases e; exact ⟨_, rfl⟩⟩
  | wants op =>
    cases hl : x.lock with
    | none => exact ⟨i, _, _, hi, ht, .acquire i op hi hl, fun y e => by cases e; exact ⟨_, rfl⟩⟩
    | some j =>
      obtain ⟨s, _, _, h3, _⟩ := (h.inv hb).seq
      obtain ⟨op', p, hj⟩ := h3 j hl
      exact inside j op' p hj

end Verif.Locked
