import Verif.XlogMt.Spec

/-!
# Model of the redirection of stdout (`/repo/src/log/xlog.c` 144-182)

One thread at a time.  `freopen(path, "w", stdout)` closes `stdout` and, if the file cannot be opened, leaves it closed (C11
7.21.5.4); the value it returns is `stdout` itself, so `fp_out` is `stdout` or NULL.  Using a closed stream is undefined (`none`).
-/
namespace Verif.XlogMt.Redirect

structure St where
  /-- `stdout` is open -/
  isOpen : Bool
  /-- where it goes: `none` for the terminal, else the file -/
  dest : Option Nat
  /-- `g_xlog_cfg.fp_out` is not NULL -/
  fp : Bool
  deriving DecidableEq, Repr

/-- Program start, xlog.c 80. -/
def St.init : St := ⟨true, none, false⟩

inductive Op
  /-- `xlog_stdout2file`; `path = none`: NULL or empty; `ok`: the file can be opened -/
  | toFile (path : Option Nat) (ok : Bool)
  | back (ok : Bool)
  /-- a line on the console -/
  | line (id : Nat)
  deriving DecidableEq, Repr

/-- A use of `stdout`. -/
def St.use (s : St) : Option St := if s.isOpen then some s else none

/-- `freopen(path, "w", stdout)` -/
def St.freopen (s : St) (dest : Option Nat) (ok : Bool) : Option St :=
  s.use.map fun s => if ok then { s with isOpen := true, dest := dest } else { s with isOpen := false, dest := s.dest }

/-- xlog.c 144-163 `xlog_stdout2file`. -/
def toFile (s : St) (path : Option Nat) (ok : Bool) : Option St :=
  match path with
  | none => some s
  | some p => do
    /- 151-156: `fflush`, `fclose` of `fp_out`, which is `stdout` -/
    let s ← (if s.fp then s.use.map fun s => { s with isOpen := false } else some s)
    /- 157: `fflush(stdout)` -/
    let s ← s.use
    /- 158 -/
    let s ← s.freopen (some p) ok
    return { s with fp := ok }

/-- xlog.c 165-182 `xlog_back2stdout`. -/
def back (s : St) (ok : Bool) : Option St :=
  if s.fp = false then some s
  else do
    /- 174-176 -/
    let s ← s.use
    let s := { s with isOpen := false, fp := false }
    /- 177 -/
    s.freopen none ok

/-- One call; a line goes to the destination (533; flushing, 536, goes to `fp_out` or `stdout`: the same stream). -/
def step (s : St) : Op → Option (St × List (Option Nat × Nat))
  | .toFile p ok => (toFile s p ok).map fun s => (s, [])
  | .back ok => (back s ok).map fun s => (s, [])
  | .line id => s.use.map fun s => (s, [(s.dest, id)])

/-- A history: final state, and the lines with their destinations. -/
def run (s : St) : List Op → Option (St × List (Option Nat × Nat))
  | [] => some (s, [])
  | o :: os => (step s o).bind fun (s, x) => (run s os).map fun (s, y) => (s, x ++ y)

/-- Calls that certainly do nothing. -/
def Op.idle : Op → Bool
  | .toFile none _ => true
  | _ => false

/-- The histories that are defined: lines and `xlog_back2stdout` before the first redirection; after a successful redirection
only lines; after one that failed neither lines nor redirections. -/
inductive Defined : List Op → Prop
  | start (pre : List Op) : (∀ o ∈ pre, (∃ id, o = .line id) ∨ (∃ ok, o = .back ok) ∨ ∃ ok, o = .toFile none ok) → Defined pre
  | redirected (pre post : List Op) (p : Nat) :
      (∀ o ∈ pre, (∃ id, o = .line id) ∨ (∃ ok, o = .back ok) ∨ ∃ ok, o = .toFile none ok) →
      (∀ o ∈ post, (∃ id, o = .line id) ∨ ∃ ok, o = .toFile none ok) → Defined (pre ++ .toFile (some p) true :: post)
  | lost (pre post : List Op) (p : Nat) :
      (∀ o ∈ pre, (∃ id, o = .line id) ∨ (∃ ok, o = .back ok) ∨ ∃ ok, o = .toFile none ok) →
      (∀ o ∈ post, (∃ ok, o = .back ok) ∨ ∃ ok, o = .toFile none ok) → Defined (pre ++ .toFile (some p) false :: post)

theorem run_closed (post : List Op) :
    (run ⟨false, none, false⟩ post).isSome = true ↔ ∀ o ∈ post, (∃ ok, o = .back ok) ∨ ∃ ok, o = .toFile none ok := by
  induction post with
  | nil => simp [run]
  | cons o os ih =>
    cases o with
    | toFile p ok =>
      cases p with
      | none =>
        simp [run, step, toFile]
        simpa using ih
      | some p => simp [run, step, toFile, St.use]
    | back ok =>
      simp [run, step, back]
      simpa using ih
    | line id => simp [run, step, St.use]

theorem run_redirected (p : Nat) (post : List Op) :
    (run ⟨true, some p, true⟩ post).isSome = true ↔ ∀ o ∈ post, (∃ id, o = .line id) ∨ ∃ ok, o = .toFile none ok := by
  induction post with
  | nil => simp [run]
  | cons o os ih =>
    cases o with
    | toFile q ok =>
      cases q with
      | none =>
        simp [run, step, toFile]
        simpa using ih
      | some q => simp [run, step, toFile, St.use]
    | back ok => simp [run, step, back, St.use, St.freopen]
    | line id =>
      simp [run, step, St.use]
      simpa using ih

/-- **C79** (redirection): exactly these histories are defined: after a successful `xlog_stdout2file` neither another one nor
`xlog_back2stdout` may follow. -/
theorem redirect_defined_iff (ops : List Op) : (run St.init ops).isSome = true ↔ Defined ops := by
  induction ops with
  | nil => exact ⟨fun _ => .start [] (by simp), fun _ => by simp [run]⟩
  | cons o os ih =>
    have push : ∀ o, ((∃ id, o = .line id) ∨ (∃ ok, o = .back ok) ∨ ∃ ok, o = .toFile none ok) → (Defined (o :: os) ↔ Defined os) := by
      intro o ho
      have ho' : ∀ p b, o ≠ .toFile (some p) b := by
        rintro p b rfl
        simp at ho
      constructor
      · intro h
        generalize e : o :: os = l at h
        cases h with
        | start _ h => subst e; exact .start _ fun o ho => h o (by simp [ho])
        | redirected pre post p h1 h2 =>
          cases pre with
          | nil => simp at e; exact absurd e.1 (ho' _ _)
          | cons a pre =>
            simp at e; obtain ⟨rfl, rfl⟩ := e
            exact .redirected _ _ _ (fun o ho => h1 o (by simp [ho])) h2
        | lost pre post p h1 h2 =>
          cases pre with
          | nil => simp at e; exact absurd e.1 (ho' _ _)
          | cons a pre =>
            simp at e; obtain ⟨rfl, rfl⟩ := e
            exact .lost _ _ _ (fun o ho => h1 o (by simp [ho])) h2
      · intro h
        cases h with
        | start _ h =>
          refine .start _ fun a ha => ?_
          rcases List.mem_cons.1 ha with rfl | ha
          · exact ho
          · exact h a ha
        | redirected pre post p h1 h2 =>
          refine .redirected (o :: pre) post p (fun a ha => ?_) h2
          rcases List.mem_cons.1 ha with rfl | ha
          · exact ho
          · exact h1 a ha
        | lost pre post p h1 h2 =>
          refine .lost (o :: pre) post p (fun a ha => ?_) h2
          rcases List.mem_cons.1 ha with rfl | ha
          · exact ho
          · exact h1 a ha
    have hd : ∀ p b, Defined (.toFile (some p) b :: os) ↔
        (b = true ∧ ∀ o ∈ os, (∃ id, o = .line id) ∨ ∃ ok, o = .toFile none ok) ∨
        (b = false ∧ ∀ o ∈ os, (∃ ok, o = .back ok) ∨ ∃ ok, o = .toFile none ok) := by
      intro p b
      constructor
      · intro h
        generalize e : Op.toFile (some p) b :: os = l at h
        cases h with
        | start _ h => subst e; have := h (.toFile (some p) b) (by simp); simp at this
        | redirected pre post q h1 h2 =>
          cases pre with
          | nil => simp at e; obtain ⟨⟨_, rfl⟩, rfl⟩ := e; exact .inl ⟨rfl, h2⟩
          | cons a pre =>
            simp at e; obtain ⟨rfl, rfl⟩ := e
            have := h1 (.toFile (some p) b) (by simp); simp at this
        | lost pre post q h1 h2 =>
          cases pre with
          | nil => simp at e; obtain ⟨⟨_, rfl⟩, rfl⟩ := e; exact .inr ⟨rfl, h2⟩
          | cons a pre =>
            simp at e; obtain ⟨rfl, rfl⟩ := e
            have := h1 (.toFile (some p) b) (by simp); simp at this
      · rintro (⟨rfl, h⟩ | ⟨rfl, h⟩)
        · exact .redirected [] os p (by simp) h
        · exact .lost [] os p (by simp) h
    cases o with
    | toFile p ok =>
      cases p with
      | none =>
        rw [push _ (.inr (.inr ⟨ok, rfl⟩)), ← ih]
        simp [run, step, toFile]
      | some p =>
        rw [hd]
        cases ok
        · have : run St.init (.toFile (some p) false :: os) = (run ⟨false, none, false⟩ os).map fun (s, y) => (s, [] ++ y) := by
            simp [run, step, toFile, St.init, St.use, St.freopen]
          rw [this, Option.isSome_map, run_closed]
          simp
        · have : run St.init (.toFile (some p) true :: os) = (run ⟨true, some p, true⟩ os).map fun (s, y) => (s, [] ++ y) := by
            simp [run, step, toFile, St.init, St.use, St.freopen]
          rw [this, Option.isSome_map, run_redirected]
          simp
    | back ok =>
      rw [push _ (.inr (.inl ⟨ok, rfl⟩)), ← ih]
      simp [run, step, back, St.init]
    | line id =>
      rw [push _ (.inl ⟨id, rfl⟩), ← ih]
      simp [run, step, St.init, St.use]

/-- **C79** (destination): in a defined history the lines before the redirection go to the terminal, the ones behind it to the file. -/
theorem redirect_lines {pre post : List Op} {p : Nat} {r : St × List (Option Nat × Nat)}
    (h : run St.init (pre ++ .toFile (some p) true :: post) = some r) :
    r.2 = (pre.filterMap fun | .line id => some (none, id) | _ => none) ++
      (post.filterMap fun | .line id => some (some p, id) | _ => none) := by
  have hpost : ∀ (post : List Op) (r : St × List (Option Nat × Nat)), run ⟨true, some p, true⟩ post = some r →
      r.2 = post.filterMap fun | .line id => some (some p, id) | _ => none := by
    intro post
    induction post with
    | nil => intro r h; simp [run] at h; subst h; rfl
    | cons o os ih =>
      intro r h
      cases o with
      | toFile q ok =>
        cases q with
        | none =>
          simp [run, step, toFile] at h
          simpa using ih _ h
        | some q => simp [run, step, toFile, St.use] at h
      | back ok => simp [run, step, back, St.use, St.freopen] at h
      | line id =>
        simp [run, step, St.use] at h
        obtain ⟨a, b, h1, rfl⟩ := h
        simpa using ih _ h1
  induction pre generalizing r with
  | nil =>
    simp [run, step, toFile, St.init, St.use, St.freopen] at h
    simpa using hpost _ _ h
  | cons o os ih =>
    have hsome : (run St.init (o :: (os ++ .toFile (some p) true :: post))).isSome = true := by
      have : (o :: os) ++ Op.toFile (some p) true :: post = o :: (os ++ .toFile (some p) true :: post) := rfl
      rw [← this, h]; rfl
    cases o with
    | toFile q ok =>
      cases q with
      | none =>
        simp [run, step, toFile] at h
        simpa using ih h
      | some q =>
        exfalso
        cases ok <;> simp [run, step, toFile, St.init, St.use, St.freopen] at h
        · have : (run ⟨false, none, false⟩ (os ++ .toFile (some p) true :: post)).isSome = true := by rw [h]; rfl
          rw [run_closed] at this
          have := this (.toFile (some p) true) (by simp)
          simp at this
        · have : (run ⟨true, some q, true⟩ (os ++ .toFile (some p) true :: post)).isSome = true := by rw [h]; rfl
          rw [run_redirected] at this
          have := this (.toFile (some p) true) (by simp)
          simp at this
    | back ok =>
      simp [run, step, back, St.init] at h
      simpa using ih h
    | line id =>
      simp [run, step, St.init, St.use] at h
      obtain ⟨a, b, h1, rfl⟩ := h
      simpa using ih h1

/-- A defined history with a redirection; the usual use, back and forth, is not one. -/
theorem redirect_cases : run St.init [.line 1, .toFile (some 7) true, .line 2] = some (⟨true, some 7, true⟩, [(none, 1), (some 7, 2)]) ∧
    run St.init [.toFile (some 7) true, .line 2, .back true] = none ∧ run St.init [.toFile (some 7) true, .toFile (some 8) true] = none ∧
    run St.init [.toFile (some 7) false, .line 1] = none := by
  refine ⟨rfl, rfl, rfl, rfl⟩

end Verif.XlogMt.Redirect
