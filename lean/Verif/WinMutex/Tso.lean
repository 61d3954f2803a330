import Verif.WinMutex.Fair
/-!
# C105 on machines with store buffers

`pthread_mutex_lock` (pthread_win_simple.c:121-149) reads `*mutex` outside the initialisation lock (128, 146): double-checked
locking.  Here `pthread_mutex_init`'s two stores — the fields of the critical section (103, as one store) and `*mutex = mx` (104) —
go into the store buffer of the thread that makes them.  The lock operations (131, 140, 147, 162) are interlocked instructions and
take place with an empty buffer.  Under TSO (x86) a buffer is emptied in order: everything of C105 holds.  If the stores may
become visible in the other order (PSO; ARM64 Windows allows it) a thread can enter a critical section that does not yet exist.
-/
namespace Verif.WinMutex

/-- A store on its way to memory. -/
inductive Sto where
  /-- the fields of the critical section object `o`, 103 -/
  | cs (o : Nat)
  /-- `*mutex = mx`, 104 -/
  | var (o : Nat)
  deriving DecidableEq, Repr

/-- Memory (with the threads), and what is in each thread's store buffer, oldest first. -/
structure TSys where
  m : Sys
  buf : Nat → List Sto

def TSys.init (k : Nat) : TSys := ⟨Sys.init k, fun _ => []⟩

def TSys.setBuf (s : TSys) (t : Nat) (l : List Sto) : Nat → List Sto := fun j => if j = t then l else s.buf j

/-- A store reaches memory. -/
def reaches (m : Sys) : Sto → Sys
  | .cs o => m.setObj o (none, 0)
  | .var o => { m with var := .obj o }

/-- The value of `*mutex` as thread `t` sees it: its own latest store, else memory. -/
def look (m : Sys) : List Sto → Var
  | [] => m.var
  | .cs _ :: l => look m l
  | .var o :: l => look { m with var := .obj o } l

/-- The positions that execute an interlocked instruction: acquire, release, enter, leave (131, 140, 147, 162). -/
def fenced : Pc → Bool
  | .lWant | .lLeave _ | .lEnter _ | .uLeave _ => true
  | _ => false

/-- The next step of thread `t`. -/
def tact (s : TSys) (t : Nat) (mem : Bool) : Option TSys :=
  if s.m.th t = .lMake ∧ mem = true then
    some ⟨{ s.m with made := s.m.made + 1 }.go t (.lLeave 0), s.setBuf t (s.buf t ++ [.cs s.m.made, .var s.m.made])⟩
  else (act { s.m with var := look s.m (s.buf t) } t mem).map fun m' => ⟨{ m' with var := s.m.var }, s.buf⟩

def sameCell : Sto → Sto → Bool
  | .cs o, .cs o' => decide (o = o')
  | .var _, .var _ => true
  | _, _ => false

/-- Calls, steps, and stores that reach memory: under TSO the oldest of a buffer, with `pso` any that has no older store to the same
place before it. -/
inductive TStep (pso : Bool) : TSys → Option TSys → Prop where
  | lock {s : TSys} (t : Nat) (h : s.m.th t = .idle) : TStep pso s (some ⟨s.m.go t .lNull, s.buf⟩)
  | unlock {s : TSys} (t : Nat) (h : s.m.th t = .idle) (hh : 0 < s.m.held t) :
      TStep pso s (some ⟨{ s.m with held := fun k => if k = t then s.m.held t - 1 else s.m.held k }.go t .uNull, s.buf⟩)
  | run {s : TSys} (t : Nat) (mem : Bool) (h : may s.m t = true) (hf : fenced (s.m.th t) = true → s.buf t = []) :
      TStep pso s (tact s t mem)
  | drain {s : TSys} (t : Nat) (a b : List Sto) (x : Sto) (h : s.buf t = a ++ x :: b)
      (ho : if pso = true then ∀ y ∈ a, sameCell y x = false else a = []) :
      TStep pso s (some ⟨reaches s.m x, s.setBuf t (a ++ b)⟩)

inductive TReach (pso : Bool) (k : Nat) : TSys → Prop where
  | init : TReach pso k (TSys.init k)
  | step {s s' : TSys} : TReach pso k s → TStep pso s (some s') → TReach pso k s'

/-- While stores of `t` are on their way, the state is that of the plain machine in which `t` has not yet begun to make the object. -/
structure Mid (t : Nat) (s : TSys) (a : Sys) : Prop where
  ath : a.th t = .lMake
  th : s.m.th t = .lLeave 0
  ths : ∀ j, j ≠ t → s.m.th j = a.th j
  held : s.m.held = a.held
  own : s.m.own = a.own
  var : s.m.var = a.var
  made : s.m.made = a.made + 1
  bufs : ∀ j, j ≠ t → s.buf j = []
  buf : (s.buf t = [.cs a.made, .var a.made] ∧ s.m.objs = a.objs) ∨
    (s.buf t = [.var a.made] ∧ s.m.objs = (a.setObj a.made (none, 0)).objs)

def Abs (s : TSys) (a : Sys) : Prop := ((∀ t, s.buf t = []) ∧ s.m = a) ∨ ∃ t, Mid t s a

theorem setBuf_same (s : TSys) (t : Nat) : s.setBuf t (s.buf t) = s.buf := by
  funext j; unfold TSys.setBuf; split
  · rename_i e; rw [e]
  · rfl

theorem go_rel {t j : Nat} {s : TSys} {a : Sys} (h : Mid t s a) (hj : j ≠ t) (c : Pc) : Mid t ⟨s.m.go j c, s.buf⟩ (a.go j c) := by
  have hj' : t ≠ j := fun e => hj e.symm
  refine ⟨by simp [Sys.go, hj', h.ath], by simp [Sys.go, hj', h.th], fun i hi => ?_, h.held, h.own, h.var, h.made, h.bufs, h.buf⟩
  by_cases e : i = j
  · simp [Sys.go, e]
  · simp [Sys.go, e, h.ths i hi]

theorem Sys.ext' {a b : Sys} (h1 : a.var = b.var) (h2 : a.objs = b.objs) (h3 : a.made = b.made) (h4 : a.own = b.own)
    (h5 : a.th = b.th) (h6 : a.held = b.held) : a = b := by
  cases a; cases b; simp only at h1 h2 h3 h4 h5 h6; subst h1 h2 h3 h4 h5 h6; rfl

/-- A step under TSO is a step of the plain machine, or none. -/
theorem refines {k s a o} (ha : Reach k a) (hr : Abs s a) (st : TStep false s o) :
    ∃ s' a', o = some s' ∧ Reach k a' ∧ Abs s' a' := by
  have hi := inv_reach ha
  rcases hr with ⟨hb, hm⟩ | ⟨t, hm⟩
  · subst hm
    cases st with
    | lock t h => exact ⟨_, _, rfl, ha.step (.lock t h), .inl ⟨hb, rfl⟩⟩
    | unlock t h hh => exact ⟨_, _, rfl, ha.step (.unlock t h hh), .inl ⟨hb, rfl⟩⟩
    | drain t p q x h _ => rw [hb t] at h; simp at h
    | run t mem h hf =>
      by_cases hc : s.m.th t = .lMake ∧ mem = true
      · refine ⟨_, s.m, by simp only [tact, hc, and_self, if_true]; rfl, ha, .inr ⟨t, ?_⟩⟩
        refine ⟨hc.1, by simp [Sys.go], fun j hj => by simp [Sys.go, hj], rfl, rfl, rfl, rfl, fun j hj => by
          simp [TSys.setBuf, hj, hb], .inl ⟨by simp [TSys.setBuf, hb], rfl⟩⟩
      · obtain ⟨s', hs, _⟩ := inv_act hi t mem h
        have hv : ({ s.m with var := look s.m (s.buf t) } : Sys) = s.m := by rw [hb t]; rfl
        have hvar : s'.var = s.m.var := by
          cases hp : s.m.th t <;> simp only [act, hp] at hs <;> (try rw [if_neg (fun e => hc ⟨hp, e⟩)] at hs) <;> (try split at hs) <;>
            (try split at hs) <;> cases hs <;> rfl
        refine ⟨⟨{ s' with var := s.m.var }, s.buf⟩, s', by simp only [tact, hc, if_false, hv, hs, Option.map_some],
          ha.step (hs ▸ Step.run t mem h), .inl ⟨hb, ?_⟩⟩
        exact Sys.ext' hvar.symm rfl rfl rfl rfl rfl
  · have fr : Fresh k a := by
      rcases hi.var with f | m
      · exact f
      · exact absurd hm.ath (m.noMake t)
    have hown : a.own = some t := (hi.own t).2 (by rw [hm.ath]; rfl)
    have hne : s.buf t ≠ [] := by rcases hm.buf with ⟨e, _⟩ | ⟨e, _⟩ <;> simp [e]
    cases st with
    | lock j h =>
      have hj : j ≠ t := by intro e; rw [e, hm.th] at h; cases h
      exact ⟨_, _, rfl, ha.step (.lock j (by rw [← hm.ths j hj]; exact h)), .inr ⟨t, go_rel hm hj _⟩⟩
    | unlock j h hh => rw [hm.held, fr.held] at hh; omega
    | drain j p q x h ho =>
      have hj : j = t := by
        by_cases e : j = t
        · exact e
        · rw [hm.bufs j e] at h; simp at h
      subst hj
      have hp : p = [] := by simpa using ho
      subst hp
      rcases hm.buf with ⟨hbuf, hobjs⟩ | ⟨hbuf, hobjs⟩
      · rw [hbuf] at h
        simp only [List.nil_append, List.cons.injEq] at h
        obtain ⟨rfl, rfl⟩ := h
        refine ⟨_, a, rfl, ha, .inr ⟨j, ?_⟩⟩
        refine ⟨hm.ath, hm.th, hm.ths, hm.held, hm.own, hm.var, hm.made, fun i hi => by simp [TSys.setBuf, hi, hm.bufs i hi],
          .inr ⟨by simp [TSys.setBuf], ?_⟩⟩
        simp only [reaches, Sys.setObj, hobjs]
      · rw [hbuf] at h
        simp only [List.nil_append, List.cons.injEq] at h
        obtain ⟨rfl, rfl⟩ := h
        refine ⟨_, _, rfl, ha.step (s' := { a.setObj a.made (none, 0) with
            var := .obj a.made
            made := a.made + 1 }.go j (.lLeave 0)) ?_, .inl ⟨fun i => ?_, ?_⟩⟩
        · have hmay : may a j = true := by simp [may, hm.ath]
          have hact : act a j true = some ({ a.setObj a.made (none, 0) with
            var := .obj a.made
            made := a.made + 1 }.go j (.lLeave 0)) := by simp only [act, hm.ath, if_true]
          exact hact ▸ Step.run j true hmay
        · by_cases e : i = j
          · simp [TSys.setBuf, e]
          · simp [TSys.setBuf, e, hm.bufs i e]
        · refine Sys.ext' rfl hobjs hm.made hm.own ?_ hm.held
          funext i
          by_cases e : i = j
          · simp [reaches, Sys.go, e, hm.th]
          · simp [reaches, Sys.go, e, hm.ths i e, Sys.setObj]
    | run j mem h hf =>
      have hj : j ≠ t := by
        intro e; subst e; exact hne (hf (by rw [hm.th]; rfl))
      have hpc := hm.ths j hj
      have hcs := hi.alone t (by rw [hm.ath]; rfl) j hj
      have hnd := fr.needs j
      have hmy : may a j = true ∧ (a.th j = .lNull ∨ a.th j = .lCmp ∨ ∃ r, a.th j = .lRet r) := by
        have hso : s.m.own = some t := by rw [hm.own, hown]
        cases hp : a.th j <;> rw [hp] at hcs hnd hpc <;> simp [cs, needs] at hcs hnd <;> simp [may, hpc, hso] at h <;>
          simp [may, hp]
      have hlook : ({ s.m with var := look s.m (s.buf j) } : Sys) = s.m := by rw [hm.bufs j hj]; rfl
      have hnm : ¬ (s.m.th j = .lMake ∧ mem = true) := by
        rintro ⟨e, _⟩
        rw [hpc] at e
        rcases hmy.2 with e' | e' | ⟨r, e'⟩ <;> rw [e] at e' <;> cases e'
      have one : ∀ c, act a j mem = some (a.go j c) → act s.m j mem = some (s.m.go j c) →
          ∃ s' a', tact s j mem = some s' ∧ Reach k a' ∧ Abs s' a' := by
        intro c h1 h2
        refine ⟨⟨s.m.go j c, s.buf⟩, a.go j c, ?_, ha.step (h1 ▸ Step.run j mem hmy.1), .inr ⟨t, go_rel hm hj c⟩⟩
        simp only [tact, hnm, if_false, hlook, h2, Option.map_some]
        rfl
      rcases hmy.2 with e | e | ⟨r, e⟩
      · exact one (if a.var = .null then .lRet EINVAL else .lCmp) (by simp only [act, e]) (by simp only [act, hpc, e, hm.var])
      · exact one .lWant (by simp only [act, e, fr.var]) (by
          have := hm.var.trans fr.var
          simp only [act, hpc, e, this])
      · exact one .idle (by simp only [act, e]) (by simp only [act, hpc, e])

theorem abs_reach {k s} (h : TReach false k s) : ∃ a, Reach k a ∧ Abs s a := by
  induction h with
  | init => exact ⟨_, .init, .inl ⟨fun _ => rfl, rfl⟩⟩
  | step _ st ih =>
    obtain ⟨a, ha, hr⟩ := ih
    obtain ⟨s', a', e, h1, h2⟩ := refines ha hr st
    cases e; exact ⟨a', h1, h2⟩

/-- **C105 under TSO.** No thread ever uses a critical section that is not there, nor the initialiser as an address. -/
theorem tso_no_undefined_behaviour {k s} (h : TReach false k s) : ¬ TStep false s none := fun hs => by
  obtain ⟨a, ha, hr⟩ := abs_reach h
  obtain ⟨s', _, e, _⟩ := refines ha hr hs
  cases e

/-- **C105 under TSO.** Mutual exclusion. -/
theorem tso_mutual_exclusion {k s} (h : TReach false k s) (t u : Nat) (ht : 0 < s.m.held t) (hu : 0 < s.m.held u) : t = u := by
  obtain ⟨a, ha, ⟨_, e⟩ | ⟨j, hm⟩⟩ := abs_reach h
  · rw [e] at ht hu; exact mutual_exclusion ha t u ht hu
  · rw [hm.held] at ht hu; exact mutual_exclusion ha t u ht hu

/-- **C105 under TSO.** At most one object is ever made. -/
theorem tso_one_object {k s} (h : TReach false k s) : s.m.made ≤ 1 ∧ (s.m.var = .stat k ∨ (s.m.var = .obj 0 ∧ s.m.objs 0 ≠ none)) := by
  obtain ⟨a, ha, ⟨_, e⟩ | ⟨j, hm⟩⟩ := abs_reach h
  · subst e
    rcases one_object ha with ⟨h1, h2⟩ | ⟨h1, h2, h3, _⟩
    · exact ⟨by omega, .inl h1⟩
    · exact ⟨by omega, .inr ⟨h1, h3⟩⟩
  · have hi := inv_reach ha
    rcases hi.var with f | m
    · exact ⟨by rw [hm.made, f.made]; exact Nat.le_refl _, .inl (by rw [hm.var, f.var])⟩
    · exact absurd hm.ath (m.noMake j)

/-! ## The other order -/

def okDrain (pso : Bool) (a : List Sto) (x : Sto) : Bool := if pso then a.all (fun y => !sameCell y x) else a.isEmpty

theorem okDrain_sound {pso : Bool} {a : List Sto} {x : Sto} (h : okDrain pso a x = true) :
    if pso = true then ∀ y ∈ a, sameCell y x = false else a = [] := by
  cases pso <;> simp [okDrain] at h ⊢
  · exact h
  · exact h

inductive TEv where
  | lock (t : Nat) | run (t : Nat)
  /-- the store at position `i` of the buffer of `t` reaches memory -/
  | drain (t i : Nat)

/-- Carry out events; `some none`: undefined behaviour. -/
def texec (pso : Bool) : List TEv → TSys → Option (Option TSys)
  | [], s => some (some s)
  | .lock t :: l, s => if s.m.th t = .idle then texec pso l ⟨s.m.go t .lNull, s.buf⟩ else none
  | .run t :: l, s =>
    if may s.m t = true ∧ (fenced (s.m.th t) = true → s.buf t = []) then
      match tact s t true with
      | some s' => texec pso l s'
      | none => if l.isEmpty then some none else none
    else none
  | .drain t i :: l, s =>
    match (s.buf t).drop i with
    | [] => none
    | x :: b => if okDrain pso ((s.buf t).take i) x = true then
        texec pso l ⟨reaches s.m x, s.setBuf t ((s.buf t).take i ++ b)⟩
      else none

theorem texec_sound {pso : Bool} {k : Nat} : ∀ (l : List TEv) {s : TSys} {o : Option TSys}, TReach pso k s →
    texec pso l s = some o → (∃ s', TReach pso k s' ∧ (o = some s' ∨ (o = none ∧ TStep pso s' none)))
  | [], s, o, hr, h => by simp [texec] at h; exact ⟨s, hr, .inl h.symm⟩
  | .lock t :: l, s, o, hr, h => by
    simp only [texec] at h
    split at h
    · rename_i hi; exact texec_sound l (hr.step (.lock t hi)) h
    · cases h
  | .run t :: l, s, o, hr, h => by
    simp only [texec] at h
    split at h
    · rename_i hm
      cases ha : tact s t true with
      | some s' =>
        simp only [ha] at h
        exact texec_sound l (hr.step (ha ▸ TStep.run t true hm.1 hm.2)) h
      | none =>
        simp only [ha] at h
        split at h
        · cases h; exact ⟨s, hr, .inr ⟨rfl, ha ▸ TStep.run t true hm.1 hm.2⟩⟩
        · cases h
    · cases h
  | .drain t i :: l, s, o, hr, h => by
    simp only [texec] at h
    split at h
    · cases h
    · rename_i x b hd
      split at h
      · rename_i hc
        refine texec_sound l (hr.step (.drain t ((s.buf t).take i) b x ?_ (okDrain_sound hc))) h
        rw [← hd, List.take_append_drop]
      · cases h

def reps (n : Nat) (e : TEv) : List TEv := List.replicate n e

/-- Thread 0 makes the object; `*mutex` becomes visible before the object does; thread 1 enters what is not there. -/
def early : List TEv := [.lock 0] ++ reps 5 (.run 0) ++ [.drain 0 1, .lock 1] ++ reps 4 (.run 1)

/-- **Finding.** When stores may become visible in another order than they were made, double-checked locking without a barrier lets a
thread enter a critical section that has not been initialised. -/
theorem pso_enters_uninitialised : ∃ s, TReach true 1 s ∧ TStep true s none := by
  have h : (texec true early (TSys.init 1)).map Option.isNone = some true := by decide
  cases e : texec true early (TSys.init 1) with
  | none => rw [e] at h; cases h
  | some o =>
    rw [e] at h
    obtain ⟨s', hr, ho | ⟨_, hs⟩⟩ := texec_sound early .init e
    · subst ho; cases h
    · exact ⟨s', hr, hs⟩

/-- With the buffer emptied in order thread 1 waits for thread 0, which holds the mutex. -/
def inOrder : List TEv := [.lock 0] ++ reps 5 (.run 0) ++ [.lock 1] ++ reps 2 (.run 1) ++ [.drain 0 0, .drain 0 0] ++ reps 3 (.run 0) ++
  reps 4 (.run 1)

def inOrderOk : Option TSys → Bool
  | some s => decide (s.m.held 0 = 1 ∧ s.m.made = 1 ∧ s.m.th 1 = .lEnter 0) && !may s.m 1
  | none => false

example : (texec false inOrder (TSys.init 1)).map inOrderOk = some true := by decide

end Verif.WinMutex
