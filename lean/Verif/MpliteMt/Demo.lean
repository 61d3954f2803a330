import Verif.MpliteMt.Props
/-!
# mplite under threads: concrete histories

A 400-byte buffer (23 atoms of 16 bytes) and three threads.
-/
namespace Verif.MpliteMt
open Verif.Mplite (St Blk GoodParams)

/-- What can be scheduled. -/
inductive Act where
  | call (i : Nat) (c : Call)
  | step (i : Nat)
  | ret (i : Nat)
  | store (i p j : Nat) (v : Byte)
  | give (i p k : Nat)

/-- `Legal`, computed. -/
def may (B : Books) (i : Nat) (c : Call) : Bool :=
  match ptrArg c with
  | none => true
  | some p => B.held.any fun h => decide (h.1 = i) && decide (h.2.off = p)

/-- One of them; `none` if it cannot happen. -/
def act (atom : Nat) (x : Sys) (B : Books) : Act → Option (Sys × Books)
  | .call i c =>
    if x.ph i = .idle ∧ may B i c = true then
      some (x.goto i (enter c), B.calls i c)
    else none
  | .step i => match move x i with
    | .ok y => some (y, B)
    | _ => none
  | .ret i => match x.ph i with
    | .returning c r => some (x.goto i .idle, B.returns atom i c r)
    | _ => none
  | .store i p j v =>
    match B.held.find? (fun h => decide (h.1 = i) && decide (h.2.off = p)) with
    | some h => if x.ph i = .idle ∧ j < h.2.size then
        some ({ x with pool := Mplite.write x.pool (h.2.off + j) v }, B.stores h.2.off j v) else none
    | none => none
  | .give i p k =>
    match B.held.find? (fun h => decide (h.1 = i) && decide (h.2.off = p)) with
    | some h => if x.ph i = .idle then some (x, B.gives h.2.off k) else none
    | none => none

def acts (atom : Nat) (x : Sys) (B : Books) : List Act → Option (Sys × Books)
  | [] => some (x, B)
  | a :: as => (act atom x B a).bind fun r => acts atom r.1 r.2 as

theorem act_run {bs ma : Nat} {x : Sys} {B : Books} (h : Run bs ma x B) {a : Act} {r : Sys × Books}
    (e : act (Mplite.atomOf ma) x B a = some r) : Run bs ma r.1 r.2 := by
  cases a with
  | call i c =>
    unfold act at e
    simp only at e
    split at e
    · rename_i hc
      injection e with e
      subst e
      refine Run.call h hc.1 ?_
      intro p hp
      have h2 := hc.2
      unfold may at h2
      rw [hp] at h2
      simp only [List.any_eq_true, Bool.and_eq_true, decide_eq_true_eq] at h2
      obtain ⟨⟨k, b⟩, h3, h4, h5⟩ := h2
      simp only at h4 h5
      subst h4
      exact ⟨b, h3, h5⟩
    · cases e
  | step i =>
    unfold act at e
    simp only at e
    cases hm : move x i with
    | ok y => rw [hm] at e; injection e with e; subst e; exact Run.step h hm
    | wait => rw [hm] at e; cases e
    | fault => rw [hm] at e; cases e
  | ret i =>
    unfold act at e
    simp only at e
    cases hq : x.ph i with
    | returning c r => rw [hq] at e; injection e with e; subst e; exact Run.ret h hq
    | _ => rw [hq] at e; cases e
  | store i p j v =>
    unfold act at e
    simp only at e
    cases hf : B.held.find? (fun h => decide (h.1 = i) && decide (h.2.off = p)) with
    | none => rw [hf] at e; cases e
    | some hd =>
      rw [hf] at e
      simp only at e
      split at e
      · rename_i hc
        injection e with e
        subst e
        have h1 := List.find?_some hf
        have h2 := List.mem_of_find?_eq_some hf
        simp only [Bool.and_eq_true, decide_eq_true_eq] at h1
        obtain ⟨k, b⟩ := hd
        simp only at h1
        have h3 := h1.1
        subst h3
        exact Run.store h hc.1 h2 hc.2
      · cases e
  | give i p k =>
    unfold act at e
    simp only at e
    cases hf : B.held.find? (fun h => decide (h.1 = i) && decide (h.2.off = p)) with
    | none => rw [hf] at e; cases e
    | some hd =>
      rw [hf] at e
      simp only at e
      split at e
      · rename_i hc
        injection e with e
        subst e
        have h1 := List.find?_some hf
        have h2 := List.mem_of_find?_eq_some hf
        simp only [Bool.and_eq_true, decide_eq_true_eq] at h1
        obtain ⟨m, b⟩ := hd
        simp only at h1
        have h3 := h1.1
        subst h3
        exact Run.give h hc h2
      · cases e

theorem acts_run {bs ma : Nat} : ∀ {as : List Act} {x : Sys} {B : Books} {r : Sys × Books}, Run bs ma x B →
    acts (Mplite.atomOf ma) x B as = some r → Run bs ma r.1 r.2
  | [], _, _, _, h, e => by injection e with e; subst e; exact h
  | a :: as, x, B, r, h, e => by
    unfold acts at e
    cases hc : act (Mplite.atomOf ma) x B a with
    | none => rw [hc] at e; cases e
    | some y => rw [hc, Option.bind_some] at e; exact acts_run (act_run h hc) e

/-- The history of a schedule. -/
def play (as : List Act) : Option (Sys × Books) :=
  Mplite.demo.bind fun s => acts (Mplite.atomOf 10) ⟨s, none, fun _ => .idle⟩ Books.empty as

theorem play_run {as : List Act} {r : Sys × Books} (e : play as = some r) : Run 400 10 r.1 r.2 := by
  unfold play at e
  cases hd : Mplite.demo with
  | none => rw [hd] at e; cases e
  | some s =>
    rw [hd, Option.bind_some] at e
    refine acts_run (Run.init (mem := fun _ => 0xAA) (s := s) ?_) e
    unfold Mplite.demo at hd
    cases hi : Mplite.init (fun _ => 0xAA) 400 10 with
    | none => rw [hi] at hd; cases hd
    | some o => rw [hi, Option.bind_some] at hd; rw [show o = some s from hd]

/-- Thread 0 gets 10 bytes, stores in them and asks for 32 (`realloc` reads the size); thread 1 gets 5 zero bytes, its
`memset` has done two of them; thread 2 has the lock and is about to get 100. -/
def schedule : List Act :=
  [.call 0 (.malloc 10), .step 0, .step 0, .step 0, .ret 0, .store 0 352 3 0x77,
   .call 1 (.calloc 5), .call 0 (.realloc 352 32), .step 1, .step 1, .step 1, .step 1, .step 1,
   .step 0, .call 2 (.malloc 100), .step 2]

/-- Where the threads are. -/
def phases (r : Sys × Books) : List Phase := [r.1.ph 0, r.1.ph 1, r.1.ph 2]

/-- Who holds which blocks. -/
def holds (r : Sys × Books) : List (Nat × Nat × Nat) := r.2.held.map (fun h => (h.1, h.2.off, h.2.size))

/-- The end of it: thread 2 gets its block in the middle of the `memset`, thread 0 moves its block. -/
def rest : List Act :=
  [.step 2, .step 1, .step 2, .step 0, .step 0, .step 1, .ret 2, .step 1, .step 0, .ret 0, .step 1, .ret 1]

example : GoodParams 400 10 := by unfold GoodParams; decide
theorem demo_phases : (play schedule).map phases =
    some [.want (.realloc 352 32) 16, .zeroing 320 5 2, .inside (.malloc 100) 0] := by decide +kernel
example : (play (schedule ++ rest)).map holds = some [(1, 320, 16), (0, 256, 32), (2, 0, 128)] := by decide +kernel
example : (play (schedule ++ rest)).map (fun r => [320, 321, 322, 323, 324, 256 + 3].map r.1.pool.mem) =
    some [0, 0, 0, 0, 0, 0x77] := by decide +kernel

example : ∃ r, play schedule = some r ∧ Run 400 10 r.1 r.2 ∧ r.1.ph 2 = .inside (.malloc 100) 0 ∧
    r.1.ph 1 = .zeroing 320 5 2 := by
  have hv := demo_phases
  cases h : play schedule with
  | none => rw [h] at hv; cases hv
  | some r =>
    rw [h] at hv
    simp only [Option.map_some, Option.some.injEq, phases, List.cons.injEq, and_true] at hv
    exact ⟨r, rfl, play_run h, hv.2.2, hv.2.1⟩

end Verif.MpliteMt
