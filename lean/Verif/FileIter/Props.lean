import Verif.FileIter.Model

/-! # C68: iterating over a directory -/
namespace Verif.FileIter
variable {σ : Type}

/-! ## Specification -/

def dot : List Byte := [46]
def dotdot : List Byte := [46, 46]

/-- The entries the caller is to see: all but `.` and `..`, in the order of the stream. -/
def visible (ns : List (List Byte)) : List (List Byte) := ns.filter fun n => !(n == dot || n == dotdot)

/-- `Visits stat path dir h ns u evs u'`: visiting the entries `ns` one after the other, each is given to the handler
with its type; the visit ends at the end, at an entry whose status cannot be read, or after a call that does not
return 0. -/
inductive Visits (stat : List Byte → Option Bool) (path : List Byte → List Byte) (dir : List Byte) (h : σ → Info → σ × Int) :
    List (List Byte) → σ → List Ev → σ → Prop
  | done (u) : Visits stat path dir h [] u [] u
  | unreadable (n ns u) : stat (path n) = none → Visits stat path dir h (n :: ns) u [] u
  | stopped (n ns u d u' r) : stat (path n) = some d → h u ⟨dir, n, d, path n⟩ = (u', r) → r ≠ 0 →
      Visits stat path dir h (n :: ns) u [.call ⟨dir, n, d, path n⟩ r] u'
  | next (n ns u d u' evs u'') : stat (path n) = some d → h u ⟨dir, n, d, path n⟩ = (u', 0) →
      Visits stat path dir h ns u' evs u'' → Visits stat path dir h (n :: ns) u (.call ⟨dir, n, d, path n⟩ 0 :: evs) u''

/-! ## Proofs -/

theorem skip_iff (n : List Byte) : skip n = (n == dot || n == dotdot) := by
  unfold skip dot dotdot
  match n with
  | [] => rfl
  | [a] => by_cases h : a = 46 <;> simp [h]
  | [a, b] => by_cases h : a = 46 <;> by_cases h' : b = 46 <;> simp [h, h']
  | a :: b :: c :: t => simp

theorem loop_visits (w : World) (dir : List Byte) (h : σ → Info → σ × Int) (ns : List (List Byte)) :
    ∀ u, Visits w.stat (path w dir) dir h (visible ns) u (loop w dir h ns u).1 (loop w dir h ns u).2 := by
  induction ns with
  | nil => intro u; exact .done u
  | cons n ns ih =>
    intro u
    unfold loop visible
    rw [List.filter_cons, ← skip_iff]
    by_cases hs : skip n
    · simp only [hs, if_true, Bool.not_true, Bool.false_eq_true, if_false]
      exact ih u
    · simp only [hs, if_false, Bool.not_false, if_true, Bool.false_eq_true]
      cases hst : w.stat (path w dir n) with
      | none => exact .unreadable _ _ _ hst
      | some d =>
        simp only []
        by_cases hr : (h u ⟨dir, n, d, path w dir n⟩).2 = 0
        · rw [if_neg (by simpa using hr), hr]
          refine .next _ _ _ _ _ _ _ hst ?_ (ih _)
          rw [← hr]
        · rw [if_pos hr]
          exact .stopped _ _ _ _ _ _ hst rfl hr

/-- **C68.** If the directory's status can be read, it is a directory and it can be opened, the handler gets exactly
the entries other than `.` and `..`, in the order of the stream and with the type of each, until an entry whose status
cannot be read or a call that does not return 0; the stream is closed, and 0 is returned. -/
theorem foreach_visits {w : World} {dir : List Byte} (h : σ → Info → σ × Int) (u : σ) {ns : List (List Byte)}
    (hd : w.stat dir = some true) (ho : w.opendir dir = some ns) :
    ∃ evs u', foreach w dir h u = (.opened :: evs ++ [.closed], u', 0) ∧
      Visits w.stat (fun n => (dir ++ 47 :: n).take (w.pathMax - 1)) dir h (visible ns) u evs u' :=
  ⟨_, _, by unfold foreach; rw [hd]; simp only [ho], loop_visits w dir h ns u⟩

/-- **C68.** Otherwise the handler is not called, nothing is opened, and 1 is returned. -/
theorem foreach_refused {w : World} {dir : List Byte} (h : σ → Info → σ × Int) (u : σ)
    (hd : w.stat dir ≠ some true ∨ w.opendir dir = none) : foreach w dir h u = ([], u, 1) := by
  unfold foreach
  cases hs : w.stat dir with
  | none => rfl
  | some b =>
    cases b with
    | false => rfl
    | true =>
      simp only []
      rcases hd with hd | hd
      · exact absurd hs hd
      · rw [hd]

/-- **C68.** The path whose status is read is `dir/name` as long as it is shorter than `PATH_MAX`. -/
theorem path_exact (w : World) {dir name : List Byte} (h : dir.length + 1 + name.length < w.pathMax) :
    path w dir name = dir ++ 47 :: name := by
  unfold path
  rw [List.take_of_length_le]
  simp
  omega

/-- FINDING: otherwise the path is cut, and the status given to the handler is that of another path. -/
theorem path_cut (w : World) {dir name : List Byte} (h : w.pathMax ≤ dir.length + 1 + name.length) (h0 : 0 < w.pathMax) :
    (path w dir name).length + 1 = w.pathMax ∧ path w dir name ≠ dir ++ 47 :: name := by
  have : (path w dir name).length + 1 = w.pathMax := by unfold path; simp; omega
  refine ⟨this, fun e => ?_⟩
  rw [e] at this
  simp at this
  omega

/-! ### Consequences of `Visits` -/

def called : List Ev → List (List Byte) := List.filterMap fun
  | .call i _ => some i.name
  | _ => none

/-- **C68.** The names given to the handler are a prefix of the visible entries; … -/
theorem visits_prefix {st : List Byte → Option Bool} {p : List Byte → List Byte} {dir : List Byte} {h : σ → Info → σ × Int}
    {ns : List (List Byte)} {u u' : σ} {evs : List Ev} (hv : Visits st p dir h ns u evs u') : called evs <+: ns := by
  induction hv with
  | done => exact List.nil_prefix
  | unreadable => exact List.nil_prefix
  | stopped n ns u d u' r _ _ _ => exact ⟨ns, rfl⟩
  | next n ns u d u' evs u'' _ _ _ ih =>
    obtain ⟨t, ht⟩ := ih
    exact ⟨t, by rw [← ht]; rfl⟩

/-- … and all of them if every status can be read and the handler always returns 0. -/
theorem visits_all {st : List Byte → Option Bool} {p : List Byte → List Byte} {dir : List Byte} {h : σ → Info → σ × Int}
    {ns : List (List Byte)} {u u' : σ} {evs : List Ev} (hv : Visits st p dir h ns u evs u')
    (hst : ∀ n ∈ ns, st (p n) ≠ none) (hh : ∀ u i, (h u i).2 = 0) : called evs = ns := by
  induction hv with
  | done => rfl
  | unreadable n ns u e => exact absurd e (hst n (List.mem_cons_self ..))
  | stopped n ns u d u' r _ e hr =>
    have := hh u ⟨dir, n, d, p n⟩
    rw [e] at this
    exact absurd this hr
  | next n ns u d u' evs u'' _ _ _ ih =>
    exact congrArg (n :: ·) (ih fun m hm => hst m (List.mem_cons_of_mem _ hm))

/-- FINDING: an entry whose status cannot be read (a dangling link) silently ends the iteration: nothing after it is
reported, and 0 is returned as for a complete iteration. -/
theorem unreadable_ends {w : World} {dir : List Byte} (h : σ → Info → σ × Int) (u : σ) {ns : List (List Byte)} {n : List Byte}
    (hd : w.stat dir = some true) (ho : w.opendir dir = some (n :: ns)) (hn : n ≠ dot ∧ n ≠ dotdot)
    (hs : w.stat (path w dir n) = none) : foreach w dir h u = ([.opened, .closed], u, 0) := by
  have e : skip n = false := by rw [skip_iff]; simp [hn.1, hn.2]
  unfold foreach
  simp only [hd, ho, loop, e, hs]
  rfl

/-! ## Non-vacuity -/

/-- A directory "d" with ".", "..", "a" (a file), "b" (a directory) and "c" (a dangling link), "e". -/
def demo : World :=
  { stat := fun p => if p = [100] then some true else if p = [100, 47, 97] then some false
      else if p = [100, 47, 98] then some true else if p = [100, 47, 101] then some false else none
    opendir := fun p => if p = [100] then some [[46], [97], [46, 46], [98], [99], [101]] else none
    pathMax := 4096 }

example : foreach demo [100] (fun (k : Nat) _ => (k + 1, 0)) 0 =
    ([.opened, .call ⟨[100], [97], false, [100, 47, 97]⟩ 0, .call ⟨[100], [98], true, [100, 47, 98]⟩ 0, .closed], 2, 0) := by
  decide +kernel

example : foreach demo [100] (fun (k : Nat) _ => (k + 1, 7)) 0 =
    ([.opened, .call ⟨[100], [97], false, [100, 47, 97]⟩ 7, .closed], 1, 0) := by
  decide +kernel

end Verif.FileIter
