import Verif.WinMutex.Model
import Verif.Portable.Model
/-!
# C105: the mutexes of the simple Windows layer; what its reader/writer locks make of `portable_rwlock_init`

With the static initialiser, any number of threads, any schedule, any failing `calloc`: at most one critical section is made,
the variable never changes again once it is, at most one thread holds the mutex, no thread follows the initialiser as if it
were an address, a `lock` that fails leaves the mutex as it was, and a thread that waits does so because another one holds it.
-/
namespace Verif.WinMutex

/-! ## The invariant -/

/-- the thread is inside the global initialisation lock -/
def cs : Pc → Bool
  | .lChk | .lMake | .lLeave _ => true
  | _ => false

/-- the thread has called `unlock` and not yet left the critical section -/
def unl : Pc → Nat
  | .uNull | .uCmp | .uLoad | .uLeave _ => 1
  | _ => 0

/-- the thread needs the object to exist -/
def needs : Pc → Bool
  | .lLoad | .lEnter _ | .uNull | .uCmp | .uLoad | .uLeave _ | .uRet _ => true
  | .lLeave r => decide (r = 0)
  | _ => false

/-- the addresses and answers a thread carries -/
def fine : Pc → Nat → Prop
  | .lEnter o, _ => o = 0
  | .uLeave o, _ => o = 0
  | .lLeave r, _ => r = 0 ∨ r = ENOMEM
  | .lRet r, h => (r = 0 ∧ 0 < h) ∨ r = ENOMEM
  | .uRet r, _ => r = 0
  | _, _ => True

def cnt (s : Sys) (t : Nat) : Nat := s.held t + unl (s.th t)

/-- nobody has made the object yet -/
structure Fresh (k : Nat) (s : Sys) : Prop where
  var : s.var = .stat k
  made : s.made = 0
  objs : ∀ o, s.objs o = none
  held : ∀ t, s.held t = 0
  needs : ∀ t, needs (s.th t) = false

/-- the object exists -/
structure Made (s : Sys) : Prop where
  var : s.var = .obj 0
  made : s.made = 1
  obj : ∃ ow n, s.objs 0 = some (ow, n) ∧
    ((ow = none ∧ n = 0 ∧ ∀ t, cnt s t = 0) ∨ ∃ u, ow = some u ∧ 0 < n ∧ cnt s u = n ∧ ∀ t, t ≠ u → cnt s t = 0)
  objs : ∀ o, o ≠ 0 → s.objs o = none
  noMake : ∀ t, s.th t ≠ .lMake

structure Inv (k : Nat) (s : Sys) : Prop where
  own : ∀ t, s.own = some t ↔ cs (s.th t) = true
  fine : ∀ t, fine (s.th t) (s.held t)
  var : Fresh k s ∨ Made s

theorem inv_init (k : Nat) : Inv k (Sys.init k) :=
  ⟨fun t => by simp [Sys.init, cs], fun t => by simp [Sys.init, fine],
    .inl ⟨rfl, rfl, fun _ => rfl, fun _ => rfl, fun _ => rfl⟩⟩

/-- A step of `t` to `c` that changes nothing else, neither enters nor leaves the initialisation lock nor starts nor ends an
`unlock`. -/
theorem inv_go {k s} (h : Inv k s) (t : Nat) (c : Pc) (hcs : cs c = cs (s.th t)) (hu : unl c = unl (s.th t))
    (hf : fine c (s.held t)) (hn : Fresh k s → needs c = false) (hm : Made s → c ≠ .lMake) : Inv k (s.go t c) := by
  have hth : ∀ j, (s.go t c).th j = if j = t then c else s.th j := fun _ => rfl
  have hcnt : ∀ j, cnt (s.go t c) j = cnt s j := by
    intro j; unfold cnt; rw [hth]; by_cases e : j = t
    · subst e; simp [hu, Sys.go]
    · simp [e, Sys.go]
  refine ⟨fun j => ?_, fun j => ?_, ?_⟩
  · rw [hth]; have := h.own j; by_cases e : j = t
    · subst e; simpa [hcs, Sys.go] using this
    · simpa [e, Sys.go] using this
  · rw [hth]; have := h.fine j; by_cases e : j = t
    · subst e; simpa [Sys.go] using hf
    · simpa [e, Sys.go] using this
  · rcases h.var with f | m
    · refine .inl ⟨f.var, f.made, f.objs, f.held, fun j => ?_⟩
      rw [hth]; by_cases e : j = t
      · simpa [e] using hn f
      · simpa [e] using f.needs j
    · refine .inr ⟨m.var, m.made, ?_, m.objs, fun j => ?_⟩
      · obtain ⟨ow, n, ho, hc⟩ := m.obj
        exact ⟨ow, n, ho, by simpa only [hcnt] using hc⟩
      · rw [hth]; by_cases e : j = t
        · simpa [e] using hm m
        · simpa [e] using m.noMake j

/-- Taking or giving back the initialisation lock. -/
theorem inv_own {k s} (h : Inv k s) (t : Nat) (o : Option Nat) (c : Pc)
    (ho : ∀ j, o = some j ↔ (j = t ∧ cs c = true)) (hfree : ∀ j, j ≠ t → cs (s.th j) = false)
    (hu : unl c = unl (s.th t))
    (hf : fine c (s.held t)) (hn : Fresh k s → needs c = false) (hm : Made s → c ≠ .lMake) :
    Inv k ({ s with own := o }.go t c) := by
  have hth : ∀ j, ({ s with own := o }.go t c).th j = if j = t then c else s.th j := fun _ => rfl
  have hcnt : ∀ j, cnt ({ s with own := o }.go t c) j = cnt s j := by
    intro j; unfold cnt; rw [hth]; by_cases e : j = t
    · subst e; simp [hu, Sys.go]
    · simp [e, Sys.go]
  refine ⟨fun j => ?_, fun j => ?_, ?_⟩
  · rw [hth]; show o = some j ↔ _
    rw [ho]; by_cases e : j = t
    · simp [e]
    · simp [e, hfree j e]
  · rw [hth]; have := h.fine j; by_cases e : j = t
    · subst e; simpa [Sys.go] using hf
    · simpa [e, Sys.go] using this
  · rcases h.var with f | m
    · refine .inl ⟨f.var, f.made, f.objs, f.held, fun j => ?_⟩
      rw [hth]; by_cases e : j = t
      · simpa [e] using hn f
      · simpa [e] using f.needs j
    · refine .inr ⟨m.var, m.made, ?_, m.objs, fun j => ?_⟩
      · obtain ⟨ow, n, ho, hc⟩ := m.obj
        exact ⟨ow, n, ho, by simpa only [hcnt] using hc⟩
      · rw [hth]; by_cases e : j = t
        · simpa [e] using hm m
        · simpa [e] using m.noMake j

/-- `pthread_mutex_init` succeeds. -/
theorem inv_make {k s} (h : Inv k s) (t : Nat) (hc : s.th t = .lMake) :
    Inv k ({ s.setObj s.made (none, 0) with
      var := .obj s.made
      made := s.made + 1 }.go t (.lLeave 0)) := by
  have f : Fresh k s := by
    rcases h.var with f | m
    · exact f
    · exact absurd hc (m.noMake t)
  have how : s.own = some t := (h.own t).2 (by rw [hc]; rfl)
  generalize hs' : ({ s.setObj s.made (none, 0) with
      var := .obj s.made
      made := s.made + 1 }.go t (.lLeave 0)) = s'
  have hth : ∀ j, s'.th j = if j = t then .lLeave 0 else s.th j := by subst hs'; intro j; rfl
  have hheld : s'.held = s.held := by subst hs'; rfl
  have hown : s'.own = s.own := by subst hs'; rfl
  have hobj : ∀ j, s'.objs j = if j = s.made then some (none, 0) else s.objs j := by subst hs'; intro j; rfl
  have hvar : s'.var = .obj s.made := by subst hs'; rfl
  have hmade : s'.made = s.made + 1 := by subst hs'; rfl
  have hun : ∀ j, unl (s'.th j) = 0 := by
    intro j; rw [hth]; by_cases e : j = t
    · simp [e, unl]
    · simp only [e, if_false]
      have := f.needs j
      revert this; cases s.th j <;> simp [needs, unl]
  refine ⟨fun j => ?_, fun j => ?_, .inr ⟨by rw [hvar, f.made], by rw [hmade, f.made], ⟨none, 0, ?_, .inl ⟨rfl, rfl, ?_⟩⟩, ?_, ?_⟩⟩
  · rw [hth, hown]; have := h.own j; by_cases e : j = t
    · subst e; simp [cs, how]
    · simpa [e] using this
  · rw [hth, hheld]; by_cases e : j = t
    · simp [e, fine]
    · simpa [e] using h.fine j
  · rw [hobj]; simp [f.made]
  · intro j; unfold cnt; rw [hun, hheld, f.held]
  · intro o ho; rw [hobj]; simp [f.made, ho, f.objs]
  · intro j; rw [hth]; by_cases e : j = t
    · simp [e]
    · simp only [e, if_false]
      intro hj
      have := (h.own j).2 (by rw [hj]; rfl)
      rw [how] at this; exact e (Option.some.inj this).symm

/-- What may happen to the critical section: the state after, from an existing object. -/
theorem inv_obj {k s} (h : Inv k s) (m : Made s) (t : Nat) (x : Option Nat × Nat) (c : Pc) (hd : Nat)
    (hcs : cs c = cs (s.th t)) (hf : fine c hd) (hm : c ≠ .lMake)
    (hx : (x.1 = none ∧ x.2 = 0 ∧ hd + unl c = 0 ∧ ∀ j, j ≠ t → cnt s j = 0) ∨
      ∃ u, x.1 = some u ∧ 0 < x.2 ∧ (if u = t then hd + unl c else cnt s u) = x.2 ∧
        ∀ j, j ≠ u → (if j = t then hd + unl c else cnt s j) = 0) :
    Inv k ({ s.setObj 0 x with held := fun j => if j = t then hd else s.held j }.go t c) := by
  generalize hs' : ({ s.setObj 0 x with held := fun j => if j = t then hd else s.held j }.go t c) = s'
  have hth : ∀ j, s'.th j = if j = t then c else s.th j := by subst hs'; intro j; rfl
  have hheld : ∀ j, s'.held j = if j = t then hd else s.held j := by subst hs'; intro j; rfl
  have hown : s'.own = s.own := by subst hs'; rfl
  have hobj : ∀ j, s'.objs j = if j = 0 then some x else s.objs j := by subst hs'; intro j; rfl
  have hvar : s'.var = s.var := by subst hs'; rfl
  have hmade : s'.made = s.made := by subst hs'; rfl
  have hcnt : ∀ j, cnt s' j = if j = t then hd + unl c else cnt s j := by
    intro j; unfold cnt; rw [hth, hheld]; by_cases e : j = t <;> simp [e]
  refine ⟨fun j => ?_, fun j => ?_, .inr ⟨by rw [hvar, m.var], by rw [hmade, m.made], ⟨x.1, x.2, by rw [hobj]; simp, ?_⟩, ?_, ?_⟩⟩
  · rw [hth, hown]; have := h.own j; by_cases e : j = t
    · subst e; simpa [hcs] using this
    · simpa [e] using this
  · rw [hth, hheld]; by_cases e : j = t
    · simpa [e] using hf
    · simpa [e] using h.fine j
  · rcases hx with ⟨a, b, c', d⟩ | ⟨u, a, b, c', d⟩
    · refine .inl ⟨a, b, fun j => ?_⟩
      rw [hcnt]; by_cases e : j = t
      · simpa [e] using c'
      · simpa [e] using d j e
    · exact .inr ⟨u, a, b, by rw [hcnt]; exact c', fun j hj => by rw [hcnt]; exact d j hj⟩
  · intro o ho; rw [hobj]; simp [ho, m.objs o ho]
  · intro j; rw [hth]; by_cases e : j = t
    · simpa [e] using hm
    · simpa [e] using m.noMake j

theorem Inv.made {k s} (h : Inv k s) (t : Nat) (hn : needs (s.th t) = true) : Made s := by
  rcases h.var with f | m
  · rw [f.needs t] at hn; simp at hn
  · exact m

theorem Inv.alone {k s} (h : Inv k s) (t : Nat) (hc : cs (s.th t) = true) : ∀ j, j ≠ t → cs (s.th j) = false := by
  intro j e
  cases hj : cs (s.th j)
  · rfl
  · have a := (h.own j).2 hj
    have b := (h.own t).2 hc
    rw [a] at b; exact absurd (Option.some.inj b) e

theorem inv_act {k s} (h : Inv k s) (t : Nat) (mem : Bool) (hmay : may s t = true) :
    ∃ s', act s t mem = some s' ∧ Inv k s' := by
  have hfi := h.fine t
  cases hc : s.th t with
  | idle => simp [may, hc] at hmay
  | lNull =>
    have hv : s.var ≠ .null := by rcases h.var with f | m; simp [f.var]; simp [m.var]
    refine ⟨_, by simp only [act, hc]; rfl, ?_⟩
    simp only [hv, if_false]
    exact inv_go h t _ (by rw [hc]; rfl) (by rw [hc]; rfl) trivial (fun _ => rfl) (fun _ => by simp)
  | lCmp =>
    refine ⟨_, by simp only [act, hc]; rfl, ?_⟩
    rcases h.var with f | m
    · simp only [f.var]
      exact inv_go h t _ (by rw [hc]; rfl) (by rw [hc]; rfl) trivial (fun _ => rfl) (fun _ => by simp)
    · simp only [m.var]
      exact inv_go h t _ (by rw [hc]; rfl) (by rw [hc]; rfl) trivial
        (fun f => by have := f.var; rw [m.var] at this; simp at this) (fun _ => by simp)
  | lWant =>
    have ho : s.own = none := by simpa [may, hc] using hmay
    refine ⟨_, by simp only [act, hc]; rfl, ?_⟩
    refine inv_own h t _ _ (fun j => by simp [cs, eq_comm]) (fun j _ => ?_) (by rw [hc]; rfl) trivial (fun _ => rfl)
      (fun _ => by simp)
    cases hj : cs (s.th j)
    · rfl
    · have := (h.own j).2 hj; rw [ho] at this; simp at this
  | lChk =>
    refine ⟨_, by simp only [act, hc]; rfl, ?_⟩
    rcases h.var with f | m
    · simp only [f.var]
      exact inv_go h t _ (by rw [hc]; rfl) (by rw [hc]; rfl) trivial (fun _ => rfl)
        (fun m => by have := m.var; rw [f.var] at this; simp at this)
    · simp only [m.var]
      exact inv_go h t _ (by rw [hc]; rfl) (by rw [hc]; rfl) (.inl rfl)
        (fun f => by have := f.var; rw [m.var] at this; simp at this) (fun _ => by simp)
  | lMake =>
    cases mem with
    | true => exact ⟨_, by simp only [act, hc, if_true], inv_make h t hc⟩
    | false =>
      exact ⟨s.go t (.lLeave ENOMEM), by simp [act, hc], inv_go h t (.lLeave ENOMEM) (by rw [hc]; rfl) (by rw [hc]; rfl) (.inr rfl) (fun _ => rfl)
        (fun _ => by simp)⟩
  | lLeave r =>
    refine ⟨_, by simp only [act, hc]; rfl, ?_⟩
    have hal := h.alone t (by rw [hc]; rfl)
    rw [hc] at hfi
    by_cases hr : r = 0
    · have m := h.made t (by rw [hc]; simp [needs, hr])
      simp only [hr, ne_eq, not_true_eq_false, if_false]
      exact inv_own h t _ _ (fun j => by simp [cs]) hal (by rw [hc]; rfl) trivial
        (fun f => by have := f.var; rw [m.var] at this; simp at this) (fun _ => by simp)
    · simp only [hr, ne_eq, not_false_eq_true, if_true]
      have hr' : r = ENOMEM := by rcases hfi with e | e; exact absurd e hr; exact e
      exact inv_own h t _ _ (fun j => by simp [cs]) hal (by rw [hc]; rfl) (.inr hr') (fun _ => rfl) (fun _ => by simp)
  | lLoad =>
    have m := h.made t (by rw [hc]; rfl)
    refine ⟨_, by simp only [act, hc, m.var]; rfl, ?_⟩
    exact inv_go h t _ (by rw [hc]; rfl) (by rw [hc]; rfl) rfl
        (fun f => by have := f.var; rw [m.var] at this; simp at this) (fun _ => by simp)
  | lEnter o =>
    have m := h.made t (by rw [hc]; rfl)
    rw [hc] at hfi
    have ho : o = 0 := hfi
    subst ho
    obtain ⟨ow, n, hobj, hcase⟩ := m.obj
    refine ⟨_, by simp only [act, hc, hobj]; rfl, ?_⟩
    have hcn : cnt s t = s.held t := by simp [cnt, hc, unl]
    refine inv_obj h m t _ _ _ (by rw [hc]; rfl) (.inl ⟨rfl, Nat.succ_pos _⟩) (by simp) (.inr ⟨t, rfl, Nat.succ_pos _, ?_, ?_⟩)
    · simp only [if_true, unl]
      rcases hcase with ⟨a, b, d⟩ | ⟨u, a, b, d, e⟩
      · have := d t; omega
      · have hut : u = t := by simpa [may, hc, hobj, a] using hmay
        subst hut; omega
    · intro j hj
      simp only [hj, if_false]
      rcases hcase with ⟨a, b, d⟩ | ⟨u, a, b, d, e⟩
      · exact d j
      · have hut : u = t := by simpa [may, hc, hobj, a] using hmay
        subst hut; exact e j hj
  | lRet r =>
    exact ⟨_, by simp only [act, hc], inv_go h t .idle (by rw [hc]; rfl) (by rw [hc]; rfl) trivial (fun _ => rfl) (fun _ => by simp)⟩
  | uNull =>
    have m := h.made t (by rw [hc]; rfl)
    refine ⟨_, by simp only [act, hc]; rfl, ?_⟩
    simp only [m.var]
    exact inv_go h t _ (by rw [hc]; rfl) (by rw [hc]; rfl) trivial
        (fun f => by have := f.var; rw [m.var] at this; simp at this) (fun _ => by simp)
  | uCmp =>
    have m := h.made t (by rw [hc]; rfl)
    refine ⟨_, by simp only [act, hc]; rfl, ?_⟩
    simp only [m.var]
    exact inv_go h t _ (by rw [hc]; rfl) (by rw [hc]; rfl) trivial
        (fun f => by have := f.var; rw [m.var] at this; simp at this) (fun _ => by simp)
  | uLoad =>
    have m := h.made t (by rw [hc]; rfl)
    refine ⟨_, by simp only [act, hc, m.var]; rfl, ?_⟩
    exact inv_go h t _ (by rw [hc]; rfl) (by rw [hc]; rfl) rfl
        (fun f => by have := f.var; rw [m.var] at this; simp at this) (fun _ => by simp)
  | uLeave o =>
    have m := h.made t (by rw [hc]; rfl)
    rw [hc] at hfi
    have ho : o = 0 := hfi
    subst ho
    obtain ⟨ow, n, hobj, hcase⟩ := m.obj
    have hcn : cnt s t = s.held t + 1 := by simp [cnt, hc, unl]
    rcases hcase with ⟨a, b, d⟩ | ⟨u, a, b, d, e⟩
    · have := d t; omega
    · have hut : u = t := by
        by_cases e' : u = t
        · exact e'
        · have := e t (fun x => e' x.symm); omega
      subst hut a
      refine ⟨_, by simp only [act, hc, hobj, if_true]; rfl, ?_⟩
      have key := inv_obj h m u (if n = 1 then (none, 0) else (some u, n - 1)) (.uRet 0) (s.held u) (by rw [hc]; rfl) rfl
        (by simp) (by
          by_cases hn : n = 1
          · left; simp only [hn, if_true, unl, Nat.add_zero]
            exact ⟨trivial, trivial, by omega, e⟩
          · right; refine ⟨u, ?_⟩
            simp only [hn, if_false, unl, if_true, Nat.add_zero]
            refine ⟨trivial, by omega, by omega, fun j hj => ?_⟩
            simpa [hj] using e j hj)
      have hh : (fun j => if j = u then s.held u else s.held j) = s.held := by
        funext j; by_cases e : j = u <;> simp [e]
      rw [hh] at key
      exact key
  | uRet r =>
    exact ⟨_, by simp only [act, hc], inv_go h t .idle (by rw [hc]; rfl) (by rw [hc]; rfl) trivial (fun _ => rfl) (fun _ => by simp)⟩

theorem inv_step {k s o} (h : Inv k s) (hs : Step s o) : ∃ s', o = some s' ∧ Inv k s' := by
  cases hs with
  | lock t hi =>
    exact ⟨_, rfl, inv_go h t _ (by rw [hi]; rfl) (by rw [hi]; rfl) trivial (fun _ => rfl) (fun _ => by simp)⟩
  | unlock t hi hh =>
    refine ⟨_, rfl, ?_⟩
    have m : Made s := by
      rcases h.var with f | m
      · have := f.held t; omega
      · exact m
    obtain ⟨ow, n, hobj, hcase⟩ := m.obj
    have hcn : cnt s t = s.held t := by simp [cnt, hi, unl]
    have key := inv_obj h m t (ow, n) .uNull (s.held t - 1) (by rw [hi]; rfl) trivial (by simp) (by
      rcases hcase with ⟨a, b, d⟩ | ⟨u, a, b, d, e⟩
      · have := d t; omega
      · have hut : u = t := by
          by_cases e' : u = t
          · exact e'
          · have := e t (fun x => e' x.symm); omega
        subst hut
        refine .inr ⟨u, a, b, ?_, fun j hj => ?_⟩
        · simp [unl]; omega
        · simpa [hj] using e j hj)
    have ho : s.setObj 0 (ow, n) = s := by
      have : (fun k => if k = 0 then some (ow, n) else s.objs k) = s.objs := by
        funext j; by_cases e : j = 0
        · simp [e, hobj]
        · simp [e]
      simp only [Sys.setObj, this]
    rw [ho] at key
    exact key
  | run t mem hm => exact inv_act h t mem hm

theorem inv_reach {k s} (h : Reach k s) : Inv k s := by
  induction h with
  | init => exact inv_init k
  | step _ hs ih =>
    obtain ⟨s', e, hi⟩ := inv_step ih hs
    cases e; exact hi

/-! ## C105 -/

/-- **C105 (nothing is followed that is not an object).** No step of any thread is undefined behaviour: the initialiser is never
used as an address, and only its owner leaves the critical section. -/
theorem no_undefined_behaviour {k s} (h : Reach k s) : ¬ Step s none := fun hs => by
  obtain ⟨s', e, _⟩ := inv_step (inv_reach h) hs; cases e

/-- **C105 (mutual exclusion).** Two threads never hold the mutex at once, whoever made the critical section. -/
theorem mutual_exclusion {k s} (h : Reach k s) (t u : Nat) (ht : 0 < s.held t) (hu : 0 < s.held u) : t = u := by
  rcases (inv_reach h).var with f | m
  · have := f.held t; omega
  · obtain ⟨ow, n, _, ⟨_, _, d⟩ | ⟨w, _, _, _, e⟩⟩ := m.obj
    · have := d t; simp only [cnt] at this; omega
    · have a : t = w := by
        by_cases e' : t = w
        · exact e'
        · have := e t e'; simp only [cnt] at this; omega
      have b : u = w := by
        by_cases e' : u = w
        · exact e'
        · have := e u e'; simp only [cnt] at this; omega
      rw [a, b]

/-- **C105 (one object).** At most one critical section is ever made, however many threads meet the initialiser; the variable
holds the initialiser until then and that object's address afterwards. -/
theorem one_object {k s} (h : Reach k s) :
    (s.var = .stat k ∧ s.made = 0) ∨ (s.var = .obj 0 ∧ s.made = 1 ∧ s.objs 0 ≠ none ∧ ∀ o, o ≠ 0 → s.objs o = none) := by
  rcases (inv_reach h).var with f | m
  · exact .inl ⟨f.var, f.made⟩
  · obtain ⟨ow, n, ho, _⟩ := m.obj
    exact .inr ⟨m.var, m.made, by simp [ho], m.objs⟩

/-- **C105 (what `pthread_mutex_lock` answers).** 0, and then the thread holds the mutex, or `ENOMEM`. -/
theorem lock_answer {k s} (h : Reach k s) (t : Nat) (r : Int) (hr : s.th t = .lRet r) :
    (r = 0 ∧ 0 < s.held t) ∨ r = ENOMEM := by
  have := (inv_reach h).fine t; rw [hr] at this; exact this

/-- `pthread_mutex_unlock` by a thread that holds the mutex answers 0. -/
theorem unlock_answer {k s} (h : Reach k s) (t : Nat) (r : Int) (hr : s.th t = .uRet r) : r = 0 := by
  have := (inv_reach h).fine t; rw [hr] at this; exact this

/-- **C105 (a failed `lock`).** The step that decides on `ENOMEM` leaves the variable, the objects and who holds what as they
were, and the next two steps of the thread end the call with that answer and the initialisation lock free. -/
theorem failed_lock {k s} (h : Reach k s) (t : Nat) (hc : s.th t = .lMake) :
    ∃ s1 s2, act s t false = some s1 ∧ may s1 t = true ∧ (∀ m, act s1 t m = some s2) ∧
      s2.th t = .lRet ENOMEM ∧ s2.own = none ∧ s2.var = s.var ∧ s2.var = .stat k ∧ s2.objs = s.objs ∧ s2.held = s.held := by
  have hi := inv_reach h
  have f : Fresh k s := by
    rcases hi.var with f | m
    · exact f
    · exact absurd hc (m.noMake t)
  refine ⟨s.go t (.lLeave ENOMEM), { s with own := none }.go t (.lRet ENOMEM), by simp [act, hc], by simp [may, Sys.go],
    fun m => ?_, by simp [Sys.go], rfl, rfl, f.var, rfl, rfl⟩
  simp only [act, Sys.go, if_true]
  simp only [ENOMEM, ne_eq]
  congr 1
  congr 1
  funext j
  by_cases e : j = t <;> simp [e]

/-- **C105 (waiting means that somebody holds it).** While some thread is inside a call, some thread can take a step, or a
thread outside any call holds the mutex. -/
theorem stuck_means_held {k s} (h : Reach k s) (t : Nat) (hc : s.th t ≠ .idle) :
    (∃ u, may s u = true) ∨ ∃ u, s.th u = .idle ∧ 0 < s.held u := by
  have hi := inv_reach h
  have own_may : ∀ v, s.own = some v → may s v = true := by
    intro v hv
    have := (hi.own v).1 hv
    cases hcv : s.th v <;> rw [hcv] at this <;> simp [cs] at this <;> simp [may, hcv]
  have want : ∀ v, s.th v = .lWant → ∃ u, may s u = true := by
    intro v hv
    cases ho : s.own with
    | none => exact ⟨v, by simp [may, hv, ho]⟩
    | some u => exact ⟨u, own_may u ho⟩
  by_cases hm : may s t = true
  · exact .inl ⟨t, hm⟩
  cases hpc : s.th t with
  | lWant => exact .inl (want t hpc)
  | lEnter o =>
    have m := hi.made t (by rw [hpc]; rfl)
    have ho : o = 0 := by have := hi.fine t; rw [hpc] at this; exact this
    subst ho
    obtain ⟨ow, n, hobj, ⟨a, _, _⟩ | ⟨u, a, b, d, e⟩⟩ := m.obj
    · subst a; exact absurd (by simp [may, hpc, hobj]) hm
    · subst a
      by_cases hid : s.th u = .idle
      · right; exact ⟨u, hid, by simp only [cnt, hid, unl] at d; omega⟩
      · left
        cases hpu : s.th u with
        | idle => exact absurd hpu hid
        | lWant => exact want u hpu
        | lEnter o' =>
          have ho' : o' = 0 := by have := hi.fine u; rw [hpu] at this; exact this
          subst ho'
          exact ⟨u, by simp [may, hpu, hobj]⟩
        | _ => exact ⟨u, by simp [may, hpu]⟩
  | idle => exact absurd hpc hc
  | _ => exact absurd (by simp [may, hpc]) hm

/-! ## What the layer does not do -/

/-- **Finding.** `pthread_mutex_destroy` of a static mutex that was never locked follows the initialiser as an address. -/
theorem destroy_of_unused (k : Nat) : destroy (Sys.init k) = none := rfl

/-- `pthread_mutex_destroy` of a used mutex that nobody is using frees the one object and answers 0; the variable is then NULL
and the next `lock` answers `EINVAL`. -/
theorem destroy_of_used {k s} (h : Reach k s) (hv : s.var ≠ .stat k) :
    ∃ s', destroy s = some (s', 0) ∧ s'.var = .null ∧ (∀ o, s'.objs o = none) ∧
      ∀ (t : Nat) (m : Bool), s'.th t = .lNull → ∃ s'', act s' t m = some s'' ∧ s''.th t = .lRet EINVAL := by
  rcases one_object h with ⟨a, _⟩ | ⟨a, _, b, c⟩
  · exact absurd a hv
  · cases ho : s.objs 0 with
    | none => exact absurd ho b
    | some x =>
      refine ⟨{ s with
        objs := fun k => if k = 0 then none else s.objs k
        var := .null }, by simp [destroy, a, ho], rfl, fun o => ?_, fun t m hl => ?_⟩
      · by_cases e : o = 0
        · simp [e]
        · simp [e, c o e]
      · have hl' : s.th t = .lNull := hl
        exact ⟨_, by simp only [act, hl']; rfl, by simp [Sys.go]⟩

/-- The run of one call of thread 0 by itself. -/
def alone (s : Sys) : Nat → Option Sys
  | 0 => some s
  | n + 1 => (act s 0 true).bind fun s => alone s n

/-- **Finding.** `pthread_mutex_unlock` of a static mutex that was never locked is ignored for `PTHREAD_MUTEX_INITIALIZER`, but
for the two other initialisers follows the initialiser as an address. -/
theorem unlock_of_unused :
    (∃ s, alone ((Sys.init 1).go 0 .uNull) 2 = some s ∧ s.th 0 = .uRet 0) ∧
    alone ((Sys.init 2).go 0 .uNull) 3 = none ∧ alone ((Sys.init 3).go 0 .uNull) 3 = none :=
  ⟨⟨_, rfl, rfl⟩, rfl, rfl⟩

/-- **Finding.** `pthread_rwlock_init` refuses a variable that holds NULL, whatever memory there is. -/
theorem rwlock_init_of_null (mem ok : Bool) (a : Nat) : rwInit .null mem ok a = (.null, EINVAL) := rfl

/-- **Finding.** So `portable_rwlock_init`, which clears the object it has allocated before it calls `pthread_rwlock_init`, never
succeeds on this layer: it answers -2 or 22, the handle is NULL, and locking and unlocking it answer -1 without locking anything. -/
theorem portable_rwlock_never_works (s : Portable.St) (v : Nat) (oom mem ok : Bool) (a : Nat) (s' : Portable.St) (r : Int)
    (h : Portable.rwlockInit s (some v) ⟨oom, (rwInit .null mem ok a).2⟩ = some (s', r)) :
    (r = -2 ∨ r = 22) ∧ s'.var .rwlock v = none ∧
    ∀ e, Portable.rwlockRdlock s' (some v) e = some (s', -1) ∧ Portable.rwlockWrlock s' (some v) e = some (s', -1) ∧
      Portable.rwlockUnlock s' (some v) e = some (s', -1) := by
  have hv : (r = -2 ∨ r = 22) ∧ s'.var .rwlock v = none := by
    cases oom with
    | true =>
      simp [Portable.rwlockInit, Portable.St.malloc] at h
      obtain ⟨rfl, rfl⟩ := h
      simp [Portable.St.setVar]
    | false =>
      simp [Portable.rwlockInit, Portable.St.malloc, Portable.St.prim, Portable.St.free, rwInit, EINVAL] at h
      obtain ⟨rfl, rfl⟩ := h
      simp [Portable.St.setVar]
  refine ⟨hv.1, hv.2, fun e => ?_⟩
  simp [Portable.rwlockRdlock, Portable.rwlockWrlock, Portable.rwlockUnlock, hv.2]

/-- `portable_rwlock_init` does come back. -/
theorem portable_rwlock_defined (s : Portable.St) (v : Nat) (oom mem ok : Bool) (a : Nat) :
    ∃ s' r, Portable.rwlockInit s (some v) ⟨oom, (rwInit .null mem ok a).2⟩ = some (s', r) := by
  cases oom with
  | true => exact ⟨_, _, by simp [Portable.rwlockInit, Portable.St.malloc]; exact ⟨rfl, rfl⟩⟩
  | false =>
    exact ⟨_, _, by
      simp [Portable.rwlockInit, Portable.St.malloc, Portable.St.prim, Portable.St.free, rwInit, EINVAL]; exact ⟨rfl, rfl⟩⟩

/-! ## Concrete runs -/

/-- a schedule: `(t, some b)`: thread `t` steps with `calloc` answering `b`; `(t, none)`: `t` calls `lock` -/
def sched (s : Sys) : List (Nat × Option Bool) → Option Sys
  | [] => some s
  | (t, none) :: l => if s.th t = .idle then sched (s.go t .lNull) l else none
  | (t, some b) :: l => if may s t = true then (act s t b).bind fun s => sched s l else none

theorem sched_reach {k s s'} (l : List (Nat × Option Bool)) (h : Reach k s) (hs : sched s l = some s') : Reach k s' := by
  induction l generalizing s with
  | nil => simp [sched] at hs; exact hs ▸ h
  | cons x l ih =>
    obtain ⟨t, b⟩ := x
    cases b with
    | none =>
      simp only [sched] at hs
      split at hs
      · rename_i hi; exact ih (.step h (.lock t hi)) hs
      · simp at hs
    | some b =>
      simp only [sched] at hs
      split at hs
      · rename_i hi
        cases ha : act s t b with
        | none => simp [ha] at hs
        | some s1 =>
          simp only [ha, Option.bind_some] at hs
          exact ih (.step h (ha ▸ Step.run t b hi)) hs
      · simp at hs

/-- Both threads see the initialiser; thread 1's first attempt fails with `ENOMEM`, then thread 0 makes the object, and thread 1
calls again and waits for it. -/
def race : List (Nat × Option Bool) :=
  [(0, none), (1, none), (0, some true), (1, some true), (0, some true), (1, some true), (1, some true), (1, some true),
   (1, some false), (1, some false), (0, some true), (0, some true), (0, some true), (0, some true), (1, some true), (1, none),
   (1, some true), (1, some true), (1, some true), (0, some true), (0, some true)]

def raceOk (s : Sys) : Bool :=
  decide (s.var = .obj 0 ∧ s.made = 1 ∧ s.held 0 = 1 ∧ s.held 1 = 0 ∧ s.th 0 = .lRet 0 ∧ s.th 1 = .lEnter 0) && !may s 1

example : (sched (Sys.init 1) race).any raceOk = true := by decide

/-- the hypotheses of `failed_lock` and of `lock_answer` with `ENOMEM` are met on the way -/
example : ((sched (Sys.init 1) (race.take 8)).any fun s => decide (s.th 1 = .lMake)) = true ∧
    ((sched (Sys.init 1) (race.take 10)).any fun s => decide (s.th 1 = .lRet ENOMEM)) = true := by decide

end Verif.WinMutex
