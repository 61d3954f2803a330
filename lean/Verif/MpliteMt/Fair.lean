import Verif.MpliteMt.Demo
import Verif.Common.Fair
/-!
# C96: every call of mplite returns, in every fair infinite execution

The steps of `Run` with their names.  Fairness: a call that can go on again and again goes on (strong: a thread waiting for the lock can
go on only while the lock is free, and others may take it first).  New calls, stores and passing on of blocks may come all the time.
-/
namespace Verif.MpliteMt
open Verif.Mplite (St Blk GoodParams)
open Verif.Fair (Exec Enabled)

/-- Who did something: the call of thread `i` went on (or returned), or the clients did something. -/
inductive Lab where
  | go (i : Nat)
  | client
  deriving DecidableEq

/-- The steps of `Run`, labelled. -/
inductive AStep (ma : Nat) : Lab → Sys × Books → Sys × Books → Prop where
  | call {x : Sys} {B : Books} {i : Nat} {c : Call} (hi : x.ph i = .idle) (hl : Legal B i c) :
      AStep ma .client (x, B) (x.goto i (enter c), B.calls i c)
  | step {x x' : Sys} {B : Books} {i : Nat} (hm : move x i = .ok x') : AStep ma (.go i) (x, B) (x', B)
  | ret {x : Sys} {B : Books} {i : Nat} {c : Call} {r : Ret} (hi : x.ph i = .returning c r) :
      AStep ma (.go i) (x, B) (x.goto i .idle, B.returns (Mplite.atomOf ma) i c r)
  | store {x : Sys} {B : Books} {i j : Nat} {b : Blk} {v : Byte} (hi : x.ph i = .idle) (hb : (i, b) ∈ B.held) (hj : j < b.size) :
      AStep ma .client (x, B) ({ x with pool := Mplite.write x.pool (b.off + j) v }, B.stores b.off j v)
  | give {x : Sys} {B : Books} {i k : Nat} {b : Blk} (hi : x.ph i = .idle) (hb : (i, b) ∈ B.held) :
      AStep ma .client (x, B) (x, B.gives b.off k)

theorem AStep.run {bs ma : Nat} {l : Lab} {s u : Sys × Books} (h : AStep ma l s u) (hr : Run bs ma s.1 s.2) : Run bs ma u.1 u.2 := by
  cases h with
  | call hi hl => exact .call hr hi hl
  | step hm => exact .step hr hm
  | ret hi => exact .ret hr hi
  | store hi hb hj => exact .store hr hi hb hj
  | give hi hb => exact .give hr hi hb

/-- Every call that can go on again and again goes on. -/
def FairRun {ma : Nat} (x : Exec (AStep ma)) : Prop := ∀ i, x.Strong (.go i)

section
variable {bs ma : Nat} {x : Exec (AStep ma)}

theorem run_all (h0 : Run bs ma (x.st 0).1 (x.st 0).2) (k : Nat) : Run bs ma (x.st k).1 (x.st k).2 := by
  induction k with
  | zero => exact h0
  | succ k ih =>
    cases hl : x.lab k with
    | none => rw [x.idle k hl]; exact ih
    | some a => exact (x.ok k a hl).run ih

/-- a thread in a call stays where it is until its call goes on -/
theorem stay1 (hp : GoodParams bs ma) (h0 : Run bs ma (x.st 0).1 (x.st 0).2) {k i : Nat} {q : Phase} (h : (x.st k).1.ph i = q)
    (hq : q ≠ .idle) : (x.st (k + 1)).1.ph i = q ∨ x.lab k = some (.go i) := by
  cases hl : x.lab k with
  | none => left; rw [x.idle k hl]; exact h
  | some l =>
    have hs := x.ok k l hl
    have hr := run_all h0 k
    generalize x.st (k + 1) = u at hs ⊢
    generalize x.st k = s at hs hr h
    cases hs with
    | @call y B j c hj hc =>
      left
      by_cases e : i = j
      · subst e; exact absurd (h.symm.trans hj) hq
      · show (y.goto j _).ph i = q
        rw [goto_other _ _ e]; exact h
    | @step y y' B j hm =>
      by_cases e : i = j
      · subst e; exact .inr rfl
      · left; exact ((mpliteMt_steps_bounded hp hr hm).2 i e).trans h
    | @ret y B j c r hj =>
      by_cases e : i = j
      · subst e; exact .inr rfl
      · left
        show (y.goto j _).ph i = q
        rw [goto_other _ _ e]; exact h
    | store hi hb hj => exact .inl h
    | give hi hb => exact .inl h

theorem stay (hp : GoodParams bs ma) (h0 : Run bs ma (x.st 0).1 (x.st 0).2) {k i : Nat} {q : Phase} (h : (x.st k).1.ph i = q)
    (hq : q ≠ .idle) (d : Nat) :
    (x.st (k + d)).1.ph i = q ∨ ∃ j, k ≤ j ∧ (x.st j).1.ph i = q ∧ x.lab j = some (.go i) := by
  induction d with
  | zero => exact .inl h
  | succ d ih =>
    rcases ih with h1 | h1
    · rcases stay1 hp h0 h1 hq with h2 | h2
      · exact .inl h2
      · exact .inr ⟨k + d, by omega, h1, h2⟩
    · exact .inr h1

/-- a call that can go on again and again as long as it is there does go on from there -/
theorem goes (hp : GoodParams bs ma) (h0 : Run bs ma (x.st 0).1 (x.st 0).2) (fair : FairRun x) {k i : Nat} {q : Phase}
    (h : (x.st k).1.ph i = q) (hq : q ≠ .idle)
    (en : ∀ m, k ≤ m → ∃ j, m ≤ j ∧ ((x.st j).1.ph i = q → Enabled (AStep ma) (.go i) (x.st j))) :
    ∃ j, k ≤ j ∧ (x.st j).1.ph i = q ∧ x.lab j = some (.go i) := by
  apply Classical.byContradiction
  intro hn
  have here : ∀ m, k ≤ m → (x.st m).1.ph i = q := by
    intro m hm
    rcases stay hp h0 h hq (m - k) with h1 | h1
    · rwa [show k + (m - k) = m by omega] at h1
    · exact absurd h1 hn
  obtain ⟨j, h1, h2⟩ := fair i (fun m => by
    obtain ⟨j, h1, h2⟩ := en (max k m) (by omega)
    exact ⟨j, by omega, h2 (here j (by omega))⟩) k
  exact hn ⟨j, h1, here j h1, h2⟩

theorem go_step {k i : Nat} {q : Phase} (h : (x.st k).1.ph i = q) (hq : ∀ c r, q ≠ .returning c r) (hl : x.lab k = some (.go i)) :
    move (x.st k).1 i = .ok (x.st (k + 1)).1 := by
  have hs := x.ok k _ hl
  generalize x.st (k + 1) = u at hs ⊢
  generalize x.st k = s at hs h
  cases hs with
  | step hm => exact hm
  | ret hi => exact absurd (h.symm.trans hi) (hq _ _)

/-- what does not wait can go on -/
theorem can {s : Sys × Books} (hp : GoodParams bs ma) (hr : Run bs ma s.1 s.2) {i : Nat} (hw : move s.1 i ≠ .wait) :
    Enabled (AStep ma) (.go i) s := by
  cases e : move s.1 i with
  | wait => exact absurd e hw
  | fault => exact absurd e (mpliteMt_never_faults hp hr i)
  | ok y => exact ⟨(y, s.2), .step e⟩

/-- the phases that never have to wait -/
def quick : Phase → Bool
  | .sizing _ | .inside _ _ | .leaving _ _ | .zeroing _ _ _ => true
  | _ => false

theorem quick_moves {s : Sys} {i : Nat} (h : quick (s.ph i) = true) : move s i ≠ .wait := by
  unfold move
  cases hi : s.ph i <;> rw [hi] at h <;> simp only [quick] at h <;> (try cases h) <;> simp only
  · split <;> nofun
  · split <;> nofun
  · nofun
  · split
    · split <;> nofun
    · nofun

theorem quick_goes (hp : GoodParams bs ma) (h0 : Run bs ma (x.st 0).1 (x.st 0).2) (fair : FairRun x) {k i : Nat} {q : Phase}
    (h : (x.st k).1.ph i = q) (hq : quick q = true) : ∃ j, k ≤ j ∧ (x.st j).1.ph i = q ∧ x.lab j = some (.go i) :=
  goes hp h0 fair h (fun e => by rw [e] at hq; cases hq) fun m _ =>
    ⟨m, Nat.le_refl _, fun hm => can hp (run_all h0 m) (quick_moves (by rw [hm]; exact hq))⟩

/-- the lock is free again and again -/
theorem lock_freed (hp : GoodParams bs ma) (h0 : Run bs ma (x.st 0).1 (x.st 0).2) (fair : FairRun x) (k : Nat) :
    ∃ m, k ≤ m ∧ (x.st m).1.holder = none := by
  have leave : ∀ {k i : Nat} {c : Call} {r : Ret}, (x.st k).1.ph i = .leaving c r → ∃ m, k ≤ m ∧ (x.st m).1.holder = none := by
    intro k i c r h
    obtain ⟨j, h1, h2, h3⟩ := quick_goes hp h0 fair h rfl
    have hm := go_step h2 nofun h3
    unfold move at hm
    rw [h2] at hm
    refine ⟨j + 1, by omega, ?_⟩
    rw [← Out.ok.inj hm]
  cases hh : (x.st k).1.holder with
  | none => exact ⟨k, Nat.le_refl _, hh⟩
  | some i =>
    have hl := (((run_all h0 k).inv hp).lock i).mp hh
    cases hq : (x.st k).1.ph i with
    | inside c old =>
      obtain ⟨j, h1, h2, h3⟩ := quick_goes hp h0 fair hq rfl
      have hm := go_step h2 nofun h3
      unfold move at hm
      rw [h2] at hm
      simp only at hm
      split at hm
      · cases hm
      · rename_i s r e
        have : (x.st (j + 1)).1.ph i = .leaving c r := by
          rw [← Out.ok.inj hm]; exact goto_self _ _ _
        obtain ⟨m, h4, h5⟩ := leave this
        exact ⟨m, by omega, h5⟩
    | leaving c r => exact leave hq
    | _ => rw [hq] at hl; cases hl

/-- **C96** (liveness).  In every fair infinite execution, with any number of threads which may call, store and pass on blocks for ever,
every call of mplite returns. -/
theorem mpliteMt_every_call_returns (hp : GoodParams bs ma) (h0 : Run bs ma (x.st 0).1 (x.st 0).2) (fair : FairRun x) {k i : Nat}
    (hi : (x.st k).1.ph i ≠ .idle) :
    ∃ m c r, k ≤ m ∧ (x.st m).1.ph i = .returning c r ∧ x.lab m = some (.go i) ∧ (x.st (m + 1)).1.ph i = .idle := by
  have key : ∀ b k, (x.st k).1.ph i ≠ .idle → stepsLeft ((x.st k).1.ph i) ≤ b →
      ∃ m c r, k ≤ m ∧ (x.st m).1.ph i = .returning c r ∧ x.lab m = some (.go i) ∧ (x.st (m + 1)).1.ph i = .idle := by
    intro b
    induction b with
    | zero =>
      intro k hi hb
      have hq : ∃ c r, (x.st k).1.ph i = .returning c r := by
        cases e : (x.st k).1.ph i with
        | idle => exact absurd e hi
        | returning c r => exact ⟨c, r, rfl⟩
        | sizing c => rw [e] at hb; simp [stepsLeft] at hb
        | want c o => rw [e] at hb; cases c <;> simp [stepsLeft] at hb
        | inside c o => rw [e] at hb; cases c <;> simp [stepsLeft] at hb
        | leaving c r => rw [e] at hb; cases c <;> simp [stepsLeft] at hb
        | zeroing p n j => rw [e] at hb; simp [stepsLeft] at hb
      obtain ⟨c, r, hq⟩ := hq
      obtain ⟨j, h1, h2, h3⟩ := goes hp h0 fair hq nofun fun m _ => ⟨m, Nat.le_refl _, fun hm => ⟨_, .ret hm⟩⟩
      refine ⟨j, c, r, h1, h2, h3, ?_⟩
      have hs := x.ok j _ h3
      generalize x.st (j + 1) = u at hs ⊢
      generalize x.st j = s at hs h2
      cases hs with
      | step hm => unfold move at hm; rw [h2] at hm; cases hm
      | ret _ => exact goto_self _ _ _
    | succ b ih =>
      intro k hi hb
      by_cases hz : stepsLeft ((x.st k).1.ph i) ≤ b
      · exact ih k hi hz
      have hnr : ∀ c r, (x.st k).1.ph i ≠ .returning c r := by
        intro c r e; rw [e] at hz; exact hz (Nat.zero_le _)
      have hgo : ∃ j, k ≤ j ∧ (x.st j).1.ph i = (x.st k).1.ph i ∧ x.lab j = some (.go i) := by
        by_cases hq : quick ((x.st k).1.ph i) = true
        · exact quick_goes hp h0 fair rfl hq
        · refine goes hp h0 fair rfl hi fun m _ => ?_
          obtain ⟨j, h1, h2⟩ := lock_freed hp h0 fair m
          refine ⟨j, h1, fun hm => can hp (run_all h0 j) ?_⟩
          cases e : (x.st k).1.ph i with
          | idle => exact absurd e hi
          | returning c r => exact absurd e (hnr c r)
          | want c o =>
            unfold move
            rw [hm, e]
            simp only [h2, if_true]
            nofun
          | _ => rw [e] at hq; exact absurd rfl hq
      obtain ⟨j, h1, h2, h3⟩ := hgo
      have hm := go_step h2 hnr h3
      have hlt := (mpliteMt_steps_bounded hp (run_all h0 j) hm).1
      rw [h2] at hlt
      have hni : (x.st (j + 1)).1.ph i ≠ .idle := by
        intro e
        have hr := run_all h0 j
        have hf := (hr.inv hp).fine i
        have hl := (((run_all h0 (j+1)).inv hp).fine i)
        have hB : (x.st (j + 1)).2 = (x.st j).2 := by
          have hs := x.ok j _ h3
          generalize x.st (j + 1) = u at hs ⊢
          generalize x.st j = s at hs h2
          cases hs with
          | step _ => rfl
          | ret hi => exact absurd (h2.symm.trans hi) (hnr _ _)
        unfold move at hm
        cases hq : (x.st j).1.ph i with
        | idle => exact absurd (h2.symm.trans hq) hi
        | returning c r => exact absurd (h2.symm.trans hq) (hnr c r)
        | want c o =>
          rw [hq] at hm
          simp only at hm
          split at hm
          · rw [← Out.ok.inj hm] at e
            exact absurd ((goto_self _ _ _).symm.trans e) nofun
          · cases hm
        | inside c o =>
          rw [hq] at hm
          simp only at hm
          split at hm
          · cases hm
          · rw [← Out.ok.inj hm] at e
            exact absurd ((goto_self _ _ _).symm.trans e) nofun
        | leaving c r =>
          rw [hq] at hm
          rw [← Out.ok.inj hm] at e
          have : left c r = .idle := (goto_self _ _ _).symm.trans e
          unfold left at this
          split at this <;> cases this
        | zeroing p n z =>
          rw [hq] at hm
          simp only at hm
          split at hm
          · split at hm
            · rw [← Out.ok.inj hm] at e
              exact absurd ((goto_self _ _ _).symm.trans e) nofun
            · cases hm
          · rw [← Out.ok.inj hm] at e
            exact absurd ((goto_self _ _ _).symm.trans e) nofun
        | sizing c =>
          rw [hq] at hm hf
          simp only at hm
          split at hm
          · cases hm
          · rename_i old _
            rw [← Out.ok.inj hm] at e
            have : sized c old = .idle := (goto_self _ _ _).symm.trans e
            cases c <;> simp only [Fine] at hf
            · simp only [sized] at this
              split at this <;> cases this
            · cases this
      obtain ⟨m, c, r, h4, h5⟩ := ih (j + 1) hni (by omega)
      exact ⟨m, c, r, by omega, h5⟩
  exact key _ k hi (Nat.le_refl _)

end

/-! ### A concrete fair execution -/

/-- The label of an act. -/
def label : Act → Lab
  | .step i => .go i
  | .ret i => .go i
  | _ => .client

theorem act_astep {ma : Nat} {l : Act} {s u : Sys × Books} (e : act (Mplite.atomOf ma) s.1 s.2 l = some u) :
    AStep ma (label l) s u := by
  obtain ⟨y, B⟩ := s
  cases l with
  | call i c =>
    simp only [act] at e
    split at e
    · rename_i hc
      cases e
      refine .call hc.1 fun p hpa => ?_
      have := hc.2
      simp only [may, hpa, List.any_eq_true, Bool.and_eq_true, decide_eq_true_eq] at this
      obtain ⟨⟨a, b⟩, h1, rfl, h2⟩ := this
      exact ⟨b, h1, h2⟩
    · cases e
  | step i =>
    simp only [act] at e
    split at e
    · cases e; exact .step (by assumption)
    · cases e
  | ret i =>
    simp only [act] at e
    split at e
    · cases e; exact .ret (by assumption)
    · cases e
  | store i p j v =>
    simp only [act] at e
    split at e
    · rename_i h hf
      split at e
      · rename_i hc
        cases e
        have h1 := List.find?_some hf
        simp only [Bool.and_eq_true, decide_eq_true_eq] at h1
        have h2 := List.mem_of_find?_eq_some hf
        obtain ⟨a, b⟩ := h
        obtain ⟨rfl, _⟩ := h1
        exact .store hc.1 h2 hc.2
      · cases e
    · cases e
  | give i p k =>
    simp only [act] at e
    split at e
    · rename_i h hf
      split at e
      · rename_i hc
        cases e
        have h1 := List.find?_some hf
        simp only [Bool.and_eq_true, decide_eq_true_eq] at h1
        have h2 := List.mem_of_find?_eq_some hf
        obtain ⟨a, b⟩ := h
        obtain ⟨rfl, _⟩ := h1
        exact .give hc h2
      · cases e
    · cases e

/-- `acts` as `Fair.runs`. -/
theorem acts_runs (atom : Nat) (as : List Act) : ∀ x B, acts atom x B as = Fair.runs (fun a s => act atom s.1 s.2 a) as (x, B) := by
  induction as with
  | nil => intro x B; rfl
  | cons a as ih =>
    intro x B
    simp only [acts, Fair.runs]
    cases act atom x B a with
    | none => rfl
    | some r => exact ih r.1 r.2

/-- At the end nobody is in a call. -/
theorem demo_end : (play (schedule ++ rest)).map phases = some [.idle, .idle, .idle] := by decide +kernel

/-- Whose phase an act may change. -/
def actor : Act → Nat
  | .call i _ => i
  | .step i => i
  | .ret i => i
  | .store i _ _ _ => i
  | .give i _ _ => i

theorem acts_others {bs ma : Nat} (hp : GoodParams bs ma) {k : Nat} : ∀ {as : List Act} {x : Sys} {B : Books} {r : Sys × Books}, Run bs ma x B →
    acts (Mplite.atomOf ma) x B as = some r → (∀ a ∈ as, actor a ≠ k) → r.1.ph k = x.ph k := by
  intro as
  induction as with
  | nil => intro x B r _ e _; cases e; rfl
  | cons a as ih =>
    intro x B r hr e ha
    simp only [acts] at e
    obtain ⟨u, e1, e2⟩ := Option.bind_eq_some_iff.1 e
    have h1 := ih (act_run hr e1) e2 fun b hb => ha b (List.mem_cons_of_mem _ hb)
    rw [h1]
    have hne := ha a (List.mem_cons_self ..)
    cases a with
    | call i c =>
      simp only [act] at e1
      split at e1
      · cases e1; exact goto_other _ _ (fun e => hne e.symm)
      · cases e1
    | step i =>
      simp only [act] at e1
      split at e1
      · cases e1; exact (mpliteMt_steps_bounded hp hr (by assumption)).2 k (fun e => hne e.symm)
      · cases e1
    | ret i =>
      simp only [act] at e1
      split at e1
      · cases e1; exact goto_other _ _ (fun e => hne e.symm)
      · cases e1
    | store i p j v =>
      simp only [act] at e1
      split at e1
      · split at e1
        · cases e1; rfl
        · cases e1
      · cases e1
    | give i p j =>
      simp only [act] at e1
      split at e1
      · split at e1
        · cases e1; rfl
        · cases e1
      · cases e1

/-- A schedule at whose end nobody is in a call is a fair execution. -/
theorem fair_of_acts {ma : Nat} (as bs : List Act) {x0 : Sys} {B0 : Books} {u v : Sys × Books}
    (hu : acts (Mplite.atomOf ma) x0 B0 (as ++ bs) = some u) (hv : acts (Mplite.atomOf ma) x0 B0 as = some v)
    (hidle : ∀ i, u.1.ph i = .idle) :
    ∃ x : Exec (AStep ma), x.st 0 = (x0, B0) ∧ FairRun x ∧ ∃ k, x.st k = v := by
  rw [acts_runs] at hu hv
  obtain ⟨x, h1, _, _, h4, h5⟩ := Fair.exists_finite (step := AStep ma) label
    (fun a s => act (Mplite.atomOf ma) s.1 s.2 a) (fun _ _ _ e => act_astep e) hu
  refine ⟨x, h1, fun i => h5 _ fun w hw => ?_, as.length, ?_⟩
  · have hi := hidle i
    cases hw with
    | step hm => unfold move at hm; rw [hi] at hm; cases hm
    | ret hq => exact absurd (hi.symm.trans hq) nofun
  · rw [h4, List.take_left, hv]; rfl

theorem schedule_actors : ∀ a ∈ schedule ++ rest, actor a < 3 := by decide

theorem good_params : GoodParams 400 10 := by unfold GoodParams; decide

theorem play_start {as : List Act} {r : Sys × Books} (e : play as = some r) :
    ∃ s : St, Run 400 10 ⟨s, none, fun _ => .idle⟩ Books.empty ∧
      ∀ bs, play bs = acts (Mplite.atomOf 10) ⟨s, none, fun _ => .idle⟩ Books.empty bs := by
  unfold play at e
  obtain ⟨s, hd, _⟩ := Option.bind_eq_some_iff.1 e
  clear e
  refine ⟨s, .init (mem := fun _ => 0xAA) ?_, fun bs => ?_⟩
  · unfold Mplite.demo at hd
    obtain ⟨o, h1, h2⟩ := Option.bind_eq_some_iff.1 hd
    show Mplite.init (fun _ => 0xAA) 400 10 = some (some s)
    rw [h1, show o = some s from h2]
  · unfold play
    rw [hd, Option.bind_some]

theorem fair_play {as bs : List Act} (hact : ∀ a ∈ as ++ bs, actor a < 3) {q : List Phase} (hmid : (play as).map phases = some q)
    (hend : (play (as ++ bs)).map phases = some [.idle, .idle, .idle]) :
    ∃ x : Exec (AStep 10), Run 400 10 (x.st 0).1 (x.st 0).2 ∧ FairRun x ∧ ∃ k, phases (x.st k) = q := by
  obtain ⟨u, hu, hph⟩ := Option.map_eq_some_iff.1 hend
  obtain ⟨v, hv, hphv⟩ := Option.map_eq_some_iff.1 hmid
  obtain ⟨s, hr0, hs⟩ := play_start hu
  rw [hs] at hu hv
  have hidle : ∀ i, u.1.ph i = .idle := by
    simp only [phases, List.cons.injEq, and_true] at hph
    intro i
    by_cases h3 : i < 3
    · rcases (by omega : i = 0 ∨ i = 1 ∨ i = 2) with rfl | rfl | rfl
      · exact hph.1
      · exact hph.2.1
      · exact hph.2.2
    · exact acts_others good_params hr0 hu fun a ha e => h3 (e ▸ hact a ha)
  obtain ⟨x, h1, h2, k, h3⟩ := fair_of_acts as bs hu hv hidle
  exact ⟨x, by rw [h1]; exact hr0, h2, k, by rw [h3]; exact hphv⟩

/-- A fair execution in which, at some time, one thread waits for the lock, one is in the `memset` of `calloc` and one has
the lock. -/
example : ∃ x : Exec (AStep 10), Run 400 10 (x.st 0).1 (x.st 0).2 ∧ FairRun x ∧
    ∃ k, phases (x.st k) = [.want (.realloc 352 32) 16, .zeroing 320 5 2, .inside (.malloc 100) 0] :=
  fair_play schedule_actors demo_phases demo_end

end Verif.MpliteMt
