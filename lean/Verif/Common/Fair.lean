/-!
# Infinite executions and fairness

Used to state liveness: what must happen in *every* fair infinite execution.  Not a model of any code.
-/
namespace Verif.Fair

variable {S E : Type}

/-- An infinite execution: a sequence of states, each step labelled by the event that took place or `none` (nothing
happened: the processors did something else). -/
structure Exec (step : E → S → S → Prop) where
  st : Nat → S
  lab : Nat → Option E
  ok : ∀ k e, lab k = some e → step e (st k) (st (k + 1))
  idle : ∀ k, lab k = none → st (k + 1) = st k

variable {step : E → S → S → Prop}

/-- event `e` can take place -/
def Enabled (step : E → S → S → Prop) (e : E) (s : S) : Prop := ∃ u, step e s u

/-- Strong fairness for `e`: if it is possible again and again, it happens again and again. -/
def Exec.Strong (x : Exec step) (e : E) : Prop :=
  (∀ n, ∃ k, n ≤ k ∧ Enabled step e (x.st k)) → ∀ n, ∃ k, n ≤ k ∧ x.lab k = some e

/-- Weak fairness for `e`: if from some time on it is possible all the time, it happens again and again. -/
def Exec.Weak (x : Exec step) (e : E) : Prop :=
  ∀ n, (∀ k, n ≤ k → Enabled step e (x.st k)) → ∃ k, n ≤ k ∧ x.lab k = some e

theorem Exec.Strong.weak {x : Exec step} {e : E} (h : x.Strong e) : x.Weak e := by
  intro n hn
  refine h (fun m => ⟨max n m, by omega, hn _ (by omega)⟩) n

/-- A quantity that never grows and shrinks with every `e` cannot have `e` happen again and again. -/
theorem no_descent (x : Exec step) {e : E} (rank : S → Nat) (n : Nat)
    (own : ∀ k, n ≤ k → x.lab k = some e → rank (x.st (k + 1)) < rank (x.st k))
    (oth : ∀ k, n ≤ k → x.lab k ≠ some e → rank (x.st (k + 1)) ≤ rank (x.st k))
    (h : ∀ m, ∃ k, m ≤ k ∧ x.lab k = some e) : False := by
  have mono : ∀ k d, n ≤ k → rank (x.st (k + d)) ≤ rank (x.st k) := by
    intro k d hk
    induction d with
    | zero => exact Nat.le_refl _
    | succ d ih =>
      by_cases hl : x.lab (k + d) = some e
      · have := own (k + d) (by omega) hl; rw [← Nat.add_assoc]; omega
      · have := oth (k + d) (by omega) hl; rw [← Nat.add_assoc]; omega
  have key : ∀ b k, n ≤ k → rank (x.st k) ≤ b → False := by
    intro b
    induction b with
    | zero =>
      intro k hk hb
      obtain ⟨j, hj, hl⟩ := h k
      have h1 := own j (by omega) hl
      have h2 := mono k (j - k) hk
      rw [show k + (j - k) = j by omega] at h2
      omega
    | succ b ih =>
      intro k hk hb
      obtain ⟨j, hj, hl⟩ := h k
      have h1 := own j (by omega) hl
      have h2 := mono k (j - k) hk
      rw [show k + (j - k) = j by omega] at h2
      exact ih (j + 1) (by omega) (by omega)
  exact key _ n (Nat.le_refl _) (Nat.le_refl _)

/-- the same with fairness: `e` cannot stay possible -/
theorem Exec.Strong.drain {x : Exec step} {e : E} (hf : x.Strong e) (rank : S → Nat) (n : Nat)
    (own : ∀ k, n ≤ k → x.lab k = some e → rank (x.st (k + 1)) < rank (x.st k))
    (oth : ∀ k, n ≤ k → x.lab k ≠ some e → rank (x.st (k + 1)) ≤ rank (x.st k))
    (en : ∀ m, n ≤ m → ∃ k, m ≤ k ∧ Enabled step e (x.st k)) : False :=
  no_descent x rank n own oth (hf fun m => by
    obtain ⟨k, h1, h2⟩ := en (max n m) (by omega)
    exact ⟨k, by omega, h2⟩)

theorem Exec.Weak.drain {x : Exec step} {e : E} (hf : x.Weak e) (rank : S → Nat) (n : Nat)
    (own : ∀ k, n ≤ k → x.lab k = some e → rank (x.st (k + 1)) < rank (x.st k))
    (oth : ∀ k, n ≤ k → x.lab k ≠ some e → rank (x.st (k + 1)) ≤ rank (x.st k))
    (en : ∀ k, n ≤ k → Enabled step e (x.st k)) : False :=
  no_descent x rank n own oth (fun m => by
    obtain ⟨k, h1, h2⟩ := hf (max n m) (fun k hk => en k (by omega))
    exact ⟨k, by omega, h2⟩)

/-- a bound that never grows and shrinks with every `e`, when `e` happens again and again: impossible -/
theorem Exec.descend {x : Exec step} {e : E} (L : Nat → S → Prop) {n : Nat}
    (one : ∀ k b, n ≤ k → L b (x.st k) → ∃ b', b' ≤ b ∧ L b' (x.st (k + 1)) ∧ (x.lab k = some e → b' < b))
    (again : ∀ k, n ≤ k → ∃ j, k ≤ j ∧ x.lab j = some e) (b : Nat) : ¬ L b (x.st n) := by
  have many : ∀ d k b, n ≤ k → L b (x.st k) → ∃ b', b' ≤ b ∧ L b' (x.st (k + d)) := by
    intro d k b hk hb
    induction d with
    | zero => exact ⟨b, Nat.le_refl _, hb⟩
    | succ d ih =>
      obtain ⟨b', h1, h2⟩ := ih
      obtain ⟨b'', h3, h4, _⟩ := one (k + d) b' (by omega) h2
      exact ⟨b'', by omega, h4⟩
  have desc : ∀ b k, n ≤ k → L b (x.st k) → False := by
    intro b
    induction b using Nat.strongRecOn with
    | ind b ih =>
      intro k hk hb
      obtain ⟨j, hj, hlab⟩ := again k hk
      obtain ⟨b', h1, h2⟩ := many (j - k) k b hk hb
      rw [show k + (j - k) = j by omega] at h2
      obtain ⟨b'', h3, h4, h5⟩ := one j b' (by omega) h2
      exact ih b'' (by have := h5 hlab; omega) (j + 1) (by omega) h4
  exact fun h => desc b n (Nat.le_refl _) h

/-- what every step preserves holds from then on -/
theorem Exec.always {x : Exec step} {P : S → Prop} {n : Nat} (h0 : P (x.st n))
    (hs : ∀ k e, n ≤ k → x.lab k = some e → P (x.st k) → P (x.st (k + 1))) : ∀ k, n ≤ k → P (x.st k) := by
  have key : ∀ d, P (x.st (n + d)) := by
    intro d
    induction d with
    | zero => exact h0
    | succ d ih =>
      cases hl : x.lab (n + d) with
      | none => have := x.idle _ hl; rw [Nat.add_assoc] at this; rw [this]; exact ih
      | some e => exact hs (n + d) e (Nat.le_add_right _ _) hl ih
  intro k hk
  have := key (k - n)
  rwa [show n + (k - n) = k by omega] at this

/-- a quantity that never grows is constant from some time on -/
theorem settles (f : Nat → Nat) (n : Nat) (h : ∀ k, n ≤ k → f (k + 1) ≤ f k) : ∃ m, n ≤ m ∧ ∀ k, m ≤ k → f k = f m := by
  have mono : ∀ k d, n ≤ k → f (k + d) ≤ f k := by
    intro k d hk
    induction d with
    | zero => exact Nat.le_refl _
    | succ d ih => have := h (k + d) (by omega); rw [← Nat.add_assoc]; omega
  have key : ∀ b k, n ≤ k → f k ≤ b → ∃ m, n ≤ m ∧ ∀ j, m ≤ j → f j = f m := by
    intro b
    induction b with
    | zero =>
      intro k hk hb
      refine ⟨k, hk, fun j hj => ?_⟩
      have := mono k (j - k) hk
      rw [show k + (j - k) = j by omega] at this
      omega
    | succ b ih =>
      intro k hk hb
      by_cases hc : ∃ j, k ≤ j ∧ f j < f k
      · obtain ⟨j, hj, hlt⟩ := hc
        exact ih j (by omega) (by omega)
      · refine ⟨k, hk, fun j hj => ?_⟩
        have := mono k (j - k) hk
        rw [show k + (j - k) = j by omega] at this
        have : ¬ f j < f k := fun h => hc ⟨j, hj, h⟩
        omega
  exact key _ n (Nat.le_refl _) (Nat.le_refl _)

/-! ### finite runs as executions (to exhibit concrete fair executions) -/

/-- carry out a list of events -/
def runs (exec : E → S → Option S) : List E → S → Option S
  | [], s => some s
  | e :: es, s => (exec e s).bind (runs exec es)

theorem runs_snoc (exec : E → S → Option S) (es : List E) (e : E) (s : S) :
    runs exec (es ++ [e]) s = (runs exec es s).bind (exec e) := by
  induction es generalizing s with
  | nil => simp only [List.nil_append, runs, Option.bind_some]; cases exec e s <;> rfl
  | cons a es ih =>
    simp only [List.cons_append, runs]
    cases exec a s with
    | none => rfl
    | some t => simp only [Option.bind_some, ih]

theorem runs_take {exec : E → S → Option S} {es : List E} {s u : S} (h : runs exec es s = some u) (k : Nat) :
    ∃ t, runs exec (es.take k) s = some t := by
  induction es generalizing s k with
  | nil => exact ⟨s, by simp [runs]⟩
  | cons e es ih =>
    cases k with
    | zero => exact ⟨s, rfl⟩
    | succ k =>
      simp only [runs] at h
      cases he : exec e s with
      | none => rw [he] at h; simp at h
      | some t =>
        rw [he] at h
        obtain ⟨v, hv⟩ := ih (s := t) h k
        exact ⟨v, by simp only [List.take_succ_cons, runs, he, Option.bind_some]; exact hv⟩

/-- do `es`, then nothing any more -/
def finite {exec : E → S → Option S} (sound : ∀ e s u, exec e s = some u → step e s u) {es : List E} {s u : S}
    (h : runs exec es s = some u) : Exec step where
  st k := (runs exec (es.take k) s).getD s
  lab k := es[k]?
  ok k e hl := by
    obtain ⟨t, ht⟩ := runs_take h k
    obtain ⟨t', ht'⟩ := runs_take h (k + 1)
    have hk : k < es.length := by
      rcases Nat.lt_or_ge k es.length with h | h
      · exact h
      · rw [List.getElem?_eq_none h] at hl; simp at hl
    have e1 : es.take (k + 1) = es.take k ++ [e] := by
      rw [List.take_add_one, hl]; rfl
    have e2 := ht'
    rw [e1, runs_snoc, ht] at e2
    simp only [ht, ht', Option.getD_some]
    exact sound e t t' e2
  idle k hl := by
    have hk : es.length ≤ k := by
      rcases Nat.lt_or_ge k es.length with h | h
      · rw [List.getElem?_eq_getElem h] at hl; simp at hl
      · exact h
    simp only [List.take_of_length_le hk, List.take_of_length_le (Nat.le_succ_of_le hk)]

theorem finite_end {exec : E → S → Option S} (sound : ∀ e s u, exec e s = some u → step e s u) {es : List E} {s u : S}
    (h : runs exec es s = some u) {k : Nat} (hk : es.length ≤ k) : (finite (step := step) sound h).st k = u := by
  simp only [finite, List.take_of_length_le hk, h, Option.getD_some]

theorem finite_zero {exec : E → S → Option S} (sound : ∀ e s u, exec e s = some u → step e s u) {es : List E} {s u : S}
    (h : runs exec es s = some u) : (finite (step := step) sound h).st 0 = s := by
  simp [finite, runs]

/-- fair towards everything that is impossible at the end -/
theorem finite_fair {exec : E → S → Option S} (sound : ∀ e s u, exec e s = some u → step e s u) {es : List E} {s u : S}
    (h : runs exec es s = some u) {e : E} (hs : ∀ v, ¬ step e u v) : (finite (step := step) sound h).Strong e := by
  intro hen
  obtain ⟨k, hk, v, hv⟩ := hen es.length
  rw [finite_end sound h hk] at hv
  exact absurd hv (hs v)

/-- the same for lists of acts whose labels are the events -/
theorem exists_finite {A : Type} (f : A → E) (exec : A → S → Option S) (sound : ∀ a s u, exec a s = some u → step (f a) s u)
    {es : List A} {s u : S} (h : runs exec es s = some u) :
    ∃ x : Exec step, x.st 0 = s ∧ (∀ k, es.length ≤ k → x.st k = u) ∧ (∀ k, x.lab k = (es[k]?).map f) ∧
      (∀ k, x.st k = (runs exec (es.take k) s).getD s) ∧ ∀ e, (∀ v, ¬ step e u v) → x.Strong e := by
  let y := finite (step := fun a s u => step (f a) s u) sound h
  let x : Exec step := {
    st := y.st
    lab := fun k => (y.lab k).map f
    ok := fun k e hl => by
      obtain ⟨a, ha, rfl⟩ := Option.map_eq_some_iff.1 hl
      exact y.ok k a ha
    idle := fun k hl => y.idle k (Option.map_eq_none_iff.1 hl) }
  have hend : ∀ k, es.length ≤ k → x.st k = u := fun k hk => finite_end (step := fun a s u => step (f a) s u) sound h hk
  refine ⟨x, finite_zero (step := fun a s u => step (f a) s u) sound h, hend, fun k => rfl, fun k => rfl, fun e he hen => ?_⟩
  obtain ⟨k, hk, v, hv⟩ := hen es.length
  rw [hend k hk] at hv
  exact absurd hv (he v)

end Verif.Fair
