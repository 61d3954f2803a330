import Verif.Thpool.Progress
/-! A scheduler that computes concrete runs (used only to exhibit reachable states). -/
namespace Verif.Thpool

def postC (s : Sys Nat) : Sys Nat :=
  match s.wrk.findIdx? (· = .asleep) with
  | some i => { s with v := true, wrk := s.wrk.set i .woken }
  | none => { s with v := true }

def isAsl : Wt → Bool
  | .tasleep _ => true
  | _ => false

def snapOf : Wt → List Nat
  | .tlock n | .t0 n | .t1 n | .tw n | .tasleep n | .twoken n | .tunl n => n
  | .idle => []

def notifyC (s : Sys Nat) : Sys Nat :=
  match s.wt.findIdx? isAsl with
  | some t => { s with wt := s.wt.set t (.twoken (snapOf (s.wt.getD t .idle))) }
  | none => s

def execW (i : Nat) (s : Sys Nat) : Option (Sys Nat) :=
  match s.wrk[i]? with
  | some .boot => if s.tc = none then some ({ s with alive := s.alive + 1 }.atW i .test) else none
  | some .test => some (s.atW i (if s.keep = true then .enter else .leave))
  | some .enter => some (if s.v = true then { s with v := false }.atW i .recheck else s.atW i .asleep)
  | some .woken => some (if s.v = true then { s with v := false }.atW i .recheck else s.atW i .asleep)
  | some .recheck => some (s.atW i (if s.keep = true then .inc else .leave))
  | some .inc => if s.tc = none then some ({ s with working := s.working + 1 }.atW i .plock) else none
  | some .plock => if s.rw = none then some ({ s with rw := some (.wrk i) }.atW i .pread) else none
  | some .pread => some (s.atW i (if s.len = 0 then .punl s.front s.dequeued.length else if s.len = 1 then .p1a s.front else .p2a s.front))
  | some (.p1a jp) => some ({ s with front := none }.atW i (.p1b jp))
  | some (.p1b jp) => some ({ s with rear := none }.atW i (.p1c jp))
  | some (.p1c (some p)) =>
    match s.heap p with
    | some c => some ({ s with len := 0, dequeued := s.dequeued ++ [c.job],
                                heap := put s.heap p (some { c with own := .wrk i s.dequeued.length })
                                 }.atW i (.punl (some p) s.dequeued.length))
    | none => none
  | some (.p2a (some p)) =>
    match s.heap p with
    | some c => some ({ s with front := c.prev }.atW i (.p2b (some p)))
    | none => none
  | some (.p2b (some p)) =>
    match s.heap p with
    | some c => some ({ s with len := s.len - 1, dequeued := s.dequeued ++ [c.job],
                                heap := put s.heap p (some { c with own := .wrk i s.dequeued.length })
                                 }.atW i (.p2c (some p) s.dequeued.length))
    | none => none
  | some (.p2c jp id) => some ((postC s).atW i (.punl jp id))
  | some (.punl jp id) => some ({ s with rw := none }.atW i (.call jp id))
  | some (.call none _) => some (s.atW i .dec)
  | some (.call (some p) id) =>
    match s.heap p with
    | some c => some ({ s with calls := s.calls ++ [(id, c.job)] }.atW i (.running p id))
    | none => none
  | some (.running p id) => some ({ s with done := s.done ++ [id] }.atW i (.free p id))
  | some (.free p _) =>
    match s.heap p with
    | some _ => some ({ s with heap := put s.heap p none }.atW i .dec)
    | none => none
  | some .dec =>
    if s.tc = none then
      if s.working - 1 = 0 then some ((notifyC { s with working := s.working - 1 }).atW i .test)
      else some ({ s with working := s.working - 1 }.atW i .test)
    else none
  | some .leave => if s.tc = none then some ({ s with alive := s.alive - 1, tc := some (.left i) }.atW i .left) else none
  | some .left => some ({ s with tc := none }.atW i .gone)
  | _ => none

def execS (t : Nat) (s : Sys Nat) : Option (Sys Nat) :=
  match s.sub[t]? with
  | some (.slock p) => if s.rw = none then some ({ s with rw := some (.sub t) }.atS t (.s0 p)) else none
  | some (.s0 p) =>
    match s.heap p with
    | some c => some ({ s with heap := put s.heap p (some { c with prev := none }) }.atS t (.s1 p))
    | none => none
  | some (.s1 p) =>
    if s.len = 0 then some ({ s with front := some p }.atS t (.s2 p)) else
    match s.rear with
    | some r =>
      match s.heap r with
      | some c => some ({ s with heap := put s.heap r (some { c with prev := some p }) }.atS t (.s2 p))
      | none => none
    | none => none
  | some (.s2 p) => some ({ s with rear := some p }.atS t (.s3 p))
  | some (.s3 p) =>
    match s.heap p with
    | some c => some ({ s with len := s.len + 1, added := s.added ++ [c.job],
                                heap := put s.heap p (some { c with own := .queue s.added.length })
                                 }.atS t (.s4 s.added.length))
    | none => none
  | some (.s4 id) => some ((postC s).atS t (.s5 id))
  | some (.s5 id) => some ({ s with rw := none, returned := s.returned ++ [id] }.atS t .idle)
  | _ => none

def execT (t : Nat) (s : Sys Nat) : Option (Sys Nat) :=
  match s.wt[t]? with
  | some (.tlock n) => if s.tc = none then some ({ s with tc := some (.wt t) }.atT t (.t0 n)) else none
  | some (.t0 n) => some (s.atT t (if s.len = 0 then .t1 n else .tw n))
  | some (.t1 n) => some (s.atT t (if s.working = 0 then .tunl n else .tw n))
  | some (.tw n) => some ({ s with tc := none }.atT t (.tasleep n))
  | some (.twoken n) => if s.tc = none then some ({ s with tc := some (.wt t) }.atT t (.t0 n)) else none
  | some (.tunl _) => some ({ s with tc := none }.atT t .idle)
  | _ => none

/-- one event; the job added is the number of the next job, plus 70, in a cell whose address is 5 more -/
def exec (e : Ev) (s : Sys Nat) : Option (Sys Nat) :=
  match e with
  | .wrk i => execW i s
  | .sub t => execS t s
  | .wt t => execT t s
  | .add t =>
    if s.sub[t]? = some .idle ∧ s.ready = true ∧ s.dst = .no ∧ (s.heap (s.added.length + 5)).isNone = true then
      some ({ s with heap := put s.heap (s.added.length + 5) (some ⟨none, s.added.length + 70, .sub t⟩) }.atS t (.slock (s.added.length + 5)))
    else none
  | .wait t => if s.wt[t]? = some .idle ∧ s.ready = true ∧ s.dst = .no then some (s.atT t (.tlock s.returned)) else none
  | .spur => none
  | .init => if s.ready = false ∧ s.alive = s.wrk.length then some { s with ready := true } else none
  | .dst =>
    match s.dst with
    | .no => if s.ready = true ∧ (∀ x ∈ s.sub, x = .idle) ∧ (∀ x ∈ s.wt, x = .idle) then some { s with dst := .loop, keep := false } else none
    | .loop => some (if s.alive = 0 then { s with dst := .freed } else { s with dst := .post })
    | .post => some { s with dst := .loop, v := true, wrk := s.wrk.map fun x => if x = .asleep then .woken else x }
    | .freed => none

def execs : List Ev → Sys Nat → Option (Sys Nat)
  | [], s => some s
  | e :: es, s => (exec e s).bind (execs es)

theorem postC_sound (s : Sys Nat) : Post s (postC s) := by
  unfold postC
  split
  · next i h =>
    refine .wake i ?_
    obtain ⟨h1, h2, _⟩ := List.findIdx?_eq_some_iff_getElem.1 h
    simp at h2
    rw [List.getElem?_eq_getElem h1, h2]
  · next h =>
    refine .nobody ?_
    intro i hi
    rw [List.findIdx?_eq_none_iff] at h
    have := h _ (List.mem_of_getElem? hi)
    simp at this

theorem notifyC_sound (s : Sys Nat) : Notify s (notifyC s) := by
  unfold notifyC
  split
  · next t h =>
    obtain ⟨h1, h2, _⟩ := List.findIdx?_eq_some_iff_getElem.1 h
    have h3 : s.wt.getD t .idle = s.wt[t] := by simp [h1]
    rw [h3]
    cases hx : s.wt[t] with
    | tasleep n => exact .wake t n (by rw [List.getElem?_eq_getElem h1, hx])
    | _ => rw [hx] at h2; simp [isAsl] at h2
  · next h =>
    refine .nobody ?_
    intro t n hi
    rw [List.findIdx?_eq_none_iff] at h
    have := h _ (List.mem_of_getElem? hi)
    simp [isAsl] at this

theorem execW_sound {i : Nat} {s u : Sys Nat} (h : execW i s = some u) : Step (.wrk i) s u := by
  unfold execW at h
  split at h
  · split at h <;> simp at h; subst h; exact .boot ‹_› ‹_›
  · simp at h; subst h
    split
    · exact .test_go ‹_› ‹_›
    · exact .test_end ‹_› (eq_false_of_ne_true ‹_›)
  · simp at h; subst h
    split
    · exact .take (.inl ‹_›) ‹_›
    · exact .sleep (.inl ‹_›) (eq_false_of_ne_true ‹_›)
  · simp at h; subst h
    split
    · exact .take (.inr ‹_›) ‹_›
    · exact .sleep (.inr ‹_›) (eq_false_of_ne_true ‹_›)
  · simp at h; subst h
    split
    · exact .recheck_go ‹_› ‹_›
    · exact .recheck_end ‹_› (eq_false_of_ne_true ‹_›)
  · split at h <;> simp at h; subst h; exact .inc ‹_› ‹_›
  · split at h <;> simp at h; subst h; exact .plock ‹_› ‹_›
  · simp at h; subst h
    split
    · exact .pread0 ‹_› ‹_›
    · split
      · exact .pread1 ‹_› ‹_›
      · exact .pread2 ‹_› (by omega)
  · simp at h; subst h; exact .p1a ‹_›
  · simp at h; subst h; exact .p1b ‹_›
  · split at h <;> simp at h; subst h; exact .p1c ‹_› ‹_›
  · split at h <;> simp at h; subst h; exact .p2a ‹_› ‹_›
  · split at h <;> simp at h; subst h; exact .p2b ‹_› ‹_›
  · simp at h; subst h; exact .p2c ‹_› (postC_sound s)
  · simp at h; subst h; exact .punl ‹_›
  · simp at h; subst h; exact .call_none ‹_›
  · split at h <;> simp at h; subst h; exact .call ‹_› ‹_›
  · simp at h; subst h; exact .ret ‹_›
  · split at h <;> simp at h; subst h; exact .free ‹_› ‹_›
  · split at h
    · split at h <;> simp at h <;> subst h
      · exact .dec_last ‹_› ‹_› ‹_› (notifyC_sound _)
      · exact .dec ‹_› ‹_› ‹_›
    · simp at h
  · split at h <;> simp at h; subst h; exact .leave ‹_› ‹_›
  · simp at h; subst h; exact .left ‹_›
  · simp at h

theorem execS_sound {t : Nat} {s u : Sys Nat} (h : execS t s = some u) : Step (.sub t) s u := by
  unfold execS at h
  split at h
  · split at h <;> simp at h; subst h; exact .slock ‹_› ‹_›
  · split at h <;> simp at h; subst h; exact .s0 ‹_› ‹_›
  · split at h
    · simp at h; subst h; exact .s1_empty ‹_› ‹_›
    · split at h
      · split at h <;> simp at h; subst h; exact .s1 ‹_› ‹_› ‹_› ‹_›
      · simp at h
  · simp at h; subst h; exact .s2 ‹_›
  · split at h <;> simp at h; subst h; exact .s3 ‹_› ‹_›
  · simp at h; subst h; exact .s4 ‹_› (postC_sound s)
  · simp at h; subst h; exact .s5 ‹_›
  · simp at h

theorem execT_sound {t : Nat} {s u : Sys Nat} (h : execT t s = some u) : Step (.wt t) s u := by
  unfold execT at h
  split at h
  · split at h <;> simp at h; subst h; exact .tlock ‹_› ‹_›
  · simp at h; subst h
    split
    · exact .t0 ‹_› ‹_›
    · exact .t0_wait ‹_› ‹_›
  · simp at h; subst h
    split
    · exact .t1 ‹_› ‹_›
    · exact .t1_wait ‹_› ‹_›
  · simp at h; subst h; exact .tw ‹_›
  · split at h <;> simp at h; subst h; exact .twoken ‹_› ‹_›
  · simp at h; subst h; exact .tunl ‹_›
  · simp at h

theorem exec_sound {e : Ev} {s u : Sys Nat} (h : exec e s = some u) : Step e s u := by
  unfold exec at h
  split at h
  · exact execW_sound h
  · exact execS_sound h
  · exact execT_sound h
  · split at h
    · next hc =>
      simp at h; subst h
      exact .add _ hc.1 hc.2.1 hc.2.2.1 (by simpa using hc.2.2.2)
    · simp at h
  · split at h
    · next hc => simp at h; subst h; exact .wait hc.1 hc.2.1 hc.2.2
    · simp at h
  · simp at h
  · split at h
    · next hc => simp at h; subst h; exact .init hc.1 hc.2
    · simp at h
  · split at h
    · split at h
      · next hc =>
        simp at h; subst h
        exact .destroy ‹_› hc.1 (fun t x hx => hc.2.1 x (List.mem_of_getElem? hx)) (fun t x hx => hc.2.2 x (List.mem_of_getElem? hx))
      · simp at h
    · simp at h; subst h
      split
      · exact .d_free ‹_› ‹_›
      · exact .d_more ‹_› ‹_›
    · simp at h; subst h; exact .d_post ‹_›
    · simp at h

theorem execs_sound {es : List Ev} {s u : Sys Nat} (h : execs es s = some u) : Steps (fun e => e ∈ es) s u := by
  induction es generalizing s with
  | nil => simp [execs] at h; subst h; exact .refl _
  | cons e es ih =>
    simp only [execs, Option.bind_eq_some_iff] at h
    obtain ⟨v, h1, h2⟩ := h
    exact (Steps.step (.refl s) (by simp) (exec_sound h1)).trans ((ih h2).mono (fun _ h => by simp [h]))

/-- a pool of `n` workers just being created, `a` threads that may add work, `w` that may wait -/
def start (n a w : Nat) : Sys Nat :=
  { heap := fun _ => none, front := none, rear := none, len := 0, rw := none, v := false, keep := true, alive := 0,
    working := 0, tc := none, ready := false, wrk := List.replicate n .boot, sub := List.replicate a .idle,
    wt := List.replicate w .idle, dst := .no, added := [], returned := [], dequeued := [], calls := [], done := [] }

theorem start_init (n a w : Nat) : Init (start n a w) := by
  refine ⟨fun _ => rfl, rfl, rfl, rfl, rfl, rfl, rfl, rfl, rfl, rfl, rfl, ?_, ?_, ?_, rfl, rfl, rfl, rfl, rfl, rfl⟩
  all_goals
    intro i x hx
    have := List.mem_of_getElem? hx
    simp only [start, List.mem_replicate] at this
    exact this.2

theorem reach_of {n a w : Nat} {es : List Ev} {u : Sys Nat} (h : execs es (start n a w) = some u) : Reach u :=
  ⟨_, start_init n a w, (execs_sound h).mono (fun _ _ => trivial)⟩

end Verif.Thpool
