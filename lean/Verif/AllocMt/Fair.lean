import Verif.AllocMt.Props
import Verif.Common.Fair
/-!
# C93: every call of the memory checker returns, in every fair infinite execution

Fairness: a thread that could go on again and again — it is inside a call, and the map's mutex is free or not needed — goes on (strong: others may
take the mutex before it); the memory it asks for is granted in the end (as everywhere in C93).  Threads may begin new calls for ever.
-/
namespace Verif.AllocMt
open Verif.Fair (Exec)
open Verif.Allocator

/-- What takes place: thread `i` goes on with its call, or the client does something (begins a call, stores a byte). -/
inductive Lab where
  | run (i : Nat)
  | client

/-- Labelled steps. -/
inductive LStep : Lab → Sys → Sys → Prop where
  | run {s s' : Sys} (i : Nat) (e : Env) (hq : e.q ≠ 0 ∧ s.st.recs e.q = none)
      (he : ∀ m, table s.st = some m → Hashmap.entryOk e.entryOk m.size = true) (h : act s i e = some (.ok s')) : LStep (.run i) s s'
  | malloc {s : Sys} (i n : Nat) (o : Ret) (h : s.ths[i]? = some (.ret o)) (hn : n + 16 < 2 ^ 64)
      (hl : ∀ pc ∈ s.ths, inLeaks pc = false) : LStep .client s { s with ths := s.ths.set i (.mRaw n) }
  | free {s : Sys} (i : Nat) (b : Blk) (o : Ret) (h : s.ths[i]? = some (.ret o)) (hb : b ∈ s.owned) :
      LStep .client s { s with
        ths := s.ths.set i (.fGet b)
        owned := s.owned.erase b }
  | size {s : Sys} (i : Nat) (b : Blk) (o : Ret) (h : s.ths[i]? = some (.ret o)) (hb : b ∈ s.owned) :
      LStep .client s { s with
        ths := s.ths.set i (.sGet b)
        owned := s.owned.erase b }
  | leaks {s : Sys} (i : Nat) (o : Ret) (h : s.ths[i]? = some (.ret o)) (hl : ∀ pc ∈ s.ths, inMalloc pc = false) :
      LStep .client s { s with ths := s.ths.set i .lGo }
  | write {s : Sys} {st : St} (b : Blk) (k : Nat) (v : UInt8) (hb : b ∈ s.owned) (hk : k < b.n) (h : store s.st (b.p + k) [v] = .ok st) :
      LStep .client s { s with st := st }

/-- The labelled steps are the steps. -/
theorem step_iff {s s' : Sys} : Step true s (.ok s') ↔ ∃ a, LStep a s s' := by
  constructor
  · intro h
    generalize hr : (Res.ok s' : Res Sys) = r at h
    cases h with
    | run i e r hq he h => subst hr; exact ⟨_, .run i e hq he h⟩
    | malloc i n o h hn hl => cases hr; exact ⟨_, .malloc i n o h hn (hl rfl)⟩
    | free i b o h hb => cases hr; exact ⟨_, .free i b o h hb⟩
    | size i b o h hb => cases hr; exact ⟨_, .size i b o h hb⟩
    | leaks i o h hl => cases hr; exact ⟨_, .leaks i o h (hl rfl)⟩
    | write b k v hb hk =>
      obtain ⟨st, h1, h2⟩ := bind_ok hr.symm
      cases h2
      exact ⟨_, .write b k v hb hk h1⟩
  · rintro ⟨a, h⟩
    cases h with
    | run i e hq he h => exact .run i e _ hq he h
    | malloc i n o h hn hl => exact .malloc i n o h hn fun _ => hl
    | free i b o h hb => exact .free i b o h hb
    | size i b o h hb => exact .size i b o h hb
    | leaks i o h hl => exact .leaks i o h fun _ => hl
    | write b k v hb hk h =>
      have := Step.write (quiet := true) (s := s) b k v hb hk
      rw [h] at this
      exact this

/-- Thread `i` could go on (given memory). -/
def May (s : Sys) (i : Nat) : Prop := ∃ e r, act s i e = some r

/-- A thread that could go on again and again goes on again and again. -/
def FairRun (x : Exec LStep) : Prop := ∀ i : Nat, (∀ n, ∃ k, n ≤ k ∧ May (x.st k) i) → ∀ n, ∃ k, n ≤ k ∧ x.lab k = some (.run i)

/-- How much of a call is left, apart from the start of the leak check. -/
def left : Pc → Nat
  | .ret _ => 0
  | .mRaw _ => 11 | .mGet _ _ => 10 | .mRec _ _ => 9 | .mPut _ _ _ => 8 | .mId _ _ _ => 7 | .mFreed _ _ _ => 6 | .mSize _ _ _ => 5
  | .mPtr _ _ _ => 4 | .mFront _ _ _ => 3 | .mBack _ _ _ => 2
  | .fGet _ => 9 | .fChk _ _ => 8 | .fMark _ _ => 7 | .fCan _ _ => 6 | .fRem _ => 5 | .fRaw _ => 4
  | .sGet _ => 3 | .sRead _ _ => 2
  | .lGo => 1
  | .lWalk todo _ _ => todo.length + 1

/-- From one position to the next. -/
def Next (pc pc' : Pc) : Prop := (pc = .lGo ∧ isWalk pc' = true) ∨ (pc ≠ .lGo ∧ left pc' < left pc ∧ pc' ≠ .lGo ∧ (isWalk pc' = true → isWalk pc = true))

theorem bind_iff {α β : Type} {x : Res α} {f : α → Res β} {b : β} : x.bind f = .ok b ↔ ∃ a, x = .ok a ∧ f a = .ok b := by
  cases x <;> simp [Res.bind]

theorem act_next {s s' : Sys} {i : Nat} {e : Env} {pc : Pc} (hi : s.ths[i]? = some pc) (h : act s i e = some (.ok s')) :
    ∃ pc', s'.ths = s.ths.set i pc' ∧ Next pc pc' ∧ (isWalk pc = true → isWalk pc' = false → s'.lock = none) := by
  cases pc
  case lWalk todo t r => cases todo <;> simp only [act, hi] at h <;>
    [skip; (obtain ⟨_, _, h⟩ := bind_iff.1 (Option.some.inj h))] <;> cases h <;>
    exact ⟨_, rfl, by simp [Next, left, isWalk], by simp [isWalk]⟩
  all_goals simp only [act, hi] at h
  all_goals repeat' split at h
  all_goals try (simp only [reduceCtorEq, Option.some.injEq, bind_iff] at h)
  all_goals try (refine Exists.elim h ?_; clear h; rintro _ ⟨_, h⟩)
  all_goals try (refine Exists.elim h ?_; clear h; rintro _ ⟨_, h⟩)
  all_goals try (split at h)
  all_goals try (split at h)
  all_goals try (split at h)
  all_goals try (simp only [reduceCtorEq] at h; done)
  all_goals simp only [Res.ok.injEq] at h
  all_goals subst h
  all_goals exact ⟨_, rfl, by simp [Next, left, isWalk], by simp [isWalk]⟩

section
variable {n : Nat} {x : Exec LStep}

theorem run_reach (h0 : Reach true n (x.st 0)) (k : Nat) : Reach true n (x.st k) := by
  induction k with
  | zero => exact h0
  | succ k ih =>
    cases hl : x.lab k with
    | none => rw [x.idle k hl]; exact ih
    | some a => exact .step _ _ ih (step_iff.2 ⟨a, x.ok k a hl⟩)

/-- Whether thread `i` is at `pc`. -/
def At (s : Sys) (i : Nat) (pc : Pc) : Prop := s.ths[i]? = some pc

theorem at_lt {s : Sys} {i : Nat} {pc : Pc} (h : At s i pc) : i < s.ths.length := (List.getElem?_eq_some_iff.mp h).1

/-- Others do not move a thread that is inside a call. -/
theorem others {a : Lab} {s s' : Sys} (h : LStep a s s') {i : Nat} {pc : Pc} (hi : At s i pc) (hc : ∀ o, pc ≠ .ret o)
    (ha : ∀ j, a = .run j → j ≠ i) : At s' i pc := by
  have key : ∀ {j : Nat} {q : Pc}, j ≠ i → (s.ths.set j q)[i]? = some pc := fun hj => by
    rw [List.getElem?_set, if_neg hj]; exact hi
  have out : ∀ {j : Nat} {o : Ret}, s.ths[j]? = some (.ret o) → j ≠ i := by
    intro j o hj e
    subst e
    have hi : s.ths[j]? = some pc := hi
    rw [hj] at hi
    exact hc o (Option.some.inj hi).symm
  cases h with
  | run j e hq he h =>
    cases hj : s.ths[j]? with
    | none => simp [act, hj] at h
    | some q =>
      obtain ⟨pc', h1, _⟩ := act_next hj h
      show s'.ths[i]? = some pc
      rw [h1]
      exact key (ha j rfl)
  | malloc j m o h => exact key (out h)
  | free j b o h => exact key (out h)
  | size j b o h => exact key (out h)
  | leaks j o h => exact key (out h)
  | write => exact hi

/-- A thread inside a call stays where it is until it goes on. -/
theorem stay1 {k i : Nat} {pc : Pc} (h : At (x.st k) i pc) (hc : ∀ o, pc ≠ .ret o) :
    At (x.st (k + 1)) i pc ∨ x.lab k = some (.run i) := by
  cases hl : x.lab k with
  | none => left; rw [x.idle k hl]; exact h
  | some a =>
    by_cases ha : a = .run i
    · right; rw [ha]
    · left
      refine others (x.ok k a hl) h hc fun j hj e => ha ?_
      rw [hj, e]

theorem stay {k i : Nat} {pc : Pc} (h : At (x.st k) i pc) (hc : ∀ o, pc ≠ .ret o) (d : Nat) :
    At (x.st (k + d)) i pc ∨ ∃ j, k ≤ j ∧ j < k + d ∧ At (x.st j) i pc ∧ x.lab j = some (.run i) := by
  induction d with
  | zero => exact .inl h
  | succ d ih =>
    rcases ih with h1 | ⟨j, h1, h2, h3⟩
    · rcases stay1 h1 hc with h2 | h2
      · exact .inl h2
      · exact .inr ⟨k + d, by omega, by omega, h1, h2⟩
    · exact .inr ⟨j, h1, by omega, h3⟩

/-- A thread that can go on again and again, as long as it is there, gets to the next position. -/
theorem goes (fair : FairRun x) {k i : Nat} {pc : Pc} (h : At (x.st k) i pc) (hc : ∀ o, pc ≠ .ret o)
    (en : ∀ m, k ≤ m → ∃ j, m ≤ j ∧ (At (x.st j) i pc → May (x.st j) i)) :
    ∃ j pc', k < j ∧ At (x.st j) i pc' ∧ Next pc pc' ∧ (isWalk pc = true → isWalk pc' = false → (x.st j).lock = none) := by
  have : ∃ j, k ≤ j ∧ At (x.st j) i pc ∧ x.lab j = some (.run i) := by
    apply Classical.byContradiction
    intro hn
    have here : ∀ m, k ≤ m → At (x.st m) i pc := by
      intro m hm
      rcases stay h hc (m - k) with h1 | ⟨j, h1, _, h2⟩
      · rwa [show k + (m - k) = m by omega] at h1
      · exact absurd ⟨j, h1, h2⟩ hn
    obtain ⟨j, h1, h2⟩ := fair i (fun m => by
      obtain ⟨j, h1, h2⟩ := en (max k m) (by omega)
      exact ⟨j, by omega, h2 (here j (by omega))⟩) k
    exact hn ⟨j, h1, here j h1, h2⟩
  obtain ⟨j, h1, h2, h3⟩ := this
  have hs := x.ok j _ h3
  cases hs with
  | run i e hq he ha =>
    obtain ⟨pc', h4, h5, h6⟩ := act_next h2 ha
    refine ⟨j + 1, pc', by omega, ?_, h5, h6⟩
    show (x.st (j + 1)).ths[i]? = some pc'
    rw [h4, List.getElem?_set, if_pos rfl, if_pos (at_lt h2)]

/-- The leak check comes to its end and gives the mutex back. -/
theorem walk_ends (fair : FairRun x) (b : Nat) : ∀ {k i : Nat} {pc : Pc}, left pc ≤ b → At (x.st k) i pc → isWalk pc = true →
    ∃ m pc', k ≤ m ∧ At (x.st m) i pc' ∧ left pc' < left pc ∧ isWalk pc' = false ∧ pc' ≠ .lGo ∧ (x.st m).lock = none := by
  induction b with
  | zero =>
    intro k i pc hb _ hw
    cases pc <;> simp [isWalk, left] at hw hb
  | succ b ih =>
    intro k i pc hb h hw
    have hc : ∀ o, pc ≠ .ret o := by rintro o rfl; cases hw
    obtain ⟨j, pc', h1, h2, h3, h4⟩ := goes fair h hc fun m _ => ⟨m, Nat.le_refl _, fun hm => by
      have hm : (x.st m).ths[i]? = some pc := hm
      refine ⟨⟨0, fun _ => 0, 0, true, true⟩, ?_⟩
      cases pc with
      | lWalk todo t r => cases todo <;> simp [act, hm]
      | _ => cases hw⟩
    rcases h3 with ⟨rfl, _⟩ | ⟨_, h5, h6, _⟩
    · cases hw
    · cases hw' : isWalk pc' with
      | false => exact ⟨j, pc', by omega, h2, h5, hw', h6, h4 hw hw'⟩
      | true =>
        obtain ⟨m, pc2, g1, g2, g3, g4⟩ := ih (by omega) h2 hw'
        exact ⟨m, pc2, by omega, g2, by omega, g4⟩

/-- The mutex is free again and again. -/
theorem lock_freed (h0 : Reach true n (x.st 0)) (fair : FairRun x) (k : Nat) : ∃ m, k ≤ m ∧ (x.st m).lock = none := by
  cases hl : (x.st k).lock with
  | none => exact ⟨k, Nat.le_refl _, hl⟩
  | some j =>
    obtain ⟨pc, h1, h2⟩ := (run_reach h0 k).inv.lock j hl
    obtain ⟨m, _, h3, _, _, _, _, h4⟩ := walk_ends fair _ (Nat.le_refl _) h1 h2
    exact ⟨m, h3, h4⟩

/-- With the mutex free a thread inside a call can go on. -/
theorem may_free {s : Sys} (h : Reach true n s) (hl : s.lock = none) {i : Nat} {pc : Pc} (hi : At s i pc) (hc : ∀ o, pc ≠ .ret o) :
    May s i := by
  have hi : s.ths[i]? = some pc := hi
  obtain ⟨m, hm⟩ := table_some h.inv
  have hm' : table s.st = some m := hm
  refine ⟨⟨0, fun _ => 0, 0, true, true⟩, ?_⟩
  cases pc with
  | ret o => exact absurd rfl (hc o)
  | mRec r k =>
    simp only [act, hi]
    split <;> exact ⟨_, rfl⟩
  | lWalk todo t rep =>
    have := (h.inv.walk i todo t rep hi).1
    rw [hl] at this; cases this
  | _ => simp [act, hi, hl, hm']

/-- **Every call returns.** In every fair infinite execution, with any number of threads that may begin new calls for ever, every
`malloc`, `free`, size request and leak check that is under way comes to its end. -/
theorem every_call_returns (h0 : Reach true n (x.st 0)) (fair : FairRun x) {k i : Nat} {pc : Pc} (hi : At (x.st k) i pc) :
    ∃ m o, k ≤ m ∧ At (x.st m) i (.ret o) := by
  have key : ∀ b {k : Nat} {pc : Pc}, left pc ≤ b → pc ≠ .lGo → At (x.st k) i pc → ∃ m o, k ≤ m ∧ At (x.st m) i (.ret o) := by
    intro b
    induction b with
    | zero =>
      intro k pc hb hg h
      cases pc <;> simp [left] at hb
      exact ⟨k, _, Nat.le_refl _, h⟩
    | succ b ih =>
      intro k pc hb hg h
      by_cases hc : ∃ o, pc = .ret o
      · obtain ⟨o, rfl⟩ := hc; exact ⟨k, o, Nat.le_refl _, h⟩
      · obtain ⟨j, pc', h1, h2, h3, _⟩ := goes fair h (fun o e => hc ⟨o, e⟩) fun m _ => by
          obtain ⟨j, g1, g2⟩ := lock_freed h0 fair m
          exact ⟨j, g1, fun hj => may_free (run_reach h0 j) g2 hj fun o e => hc ⟨o, e⟩⟩
        rcases h3 with ⟨rfl, _⟩ | ⟨_, h4, h5, _⟩
        · exact absurd rfl hg
        · obtain ⟨m, o, g1, g2⟩ := ih (by omega) h5 h2
          exact ⟨m, o, by omega, g2⟩
  by_cases hg : pc = .lGo
  · subst hg
    obtain ⟨j, pc', h1, h2, h3, _⟩ := goes fair hi nofun fun m _ => by
      obtain ⟨j, g1, g2⟩ := lock_freed h0 fair m
      exact ⟨j, g1, fun hj => may_free (run_reach h0 j) g2 hj nofun⟩
    have hw : isWalk pc' = true := by
      rcases h3 with ⟨_, h⟩ | ⟨h, _⟩
      · exact h
      · exact absurd rfl h
    obtain ⟨m, o, g1, g2⟩ := key _ (Nat.le_refl _) (by rintro rfl; cases hw) h2
    exact ⟨m, o, by omega, g2⟩
  · exact key _ (Nat.le_refl _) hg hi

end

/-! ### A concrete fair execution -/

/-- A move of a schedule of `Verif.AllocMt.Props` as an event. -/
def label : Move → Lab
  | .run i _ => .run i
  | _ => .client

/-- Carry out a move. -/
def exec (mv : Move) (s : Sys) : Option Sys := match move true s mv with
  | some (.ok u) => some u
  | _ => none

theorem exec_sound (mv : Move) (s u : Sys) (h : exec mv s = some u) : LStep (label mv) s u := by
  unfold exec at h
  split at h
  · rename_i v hm
    cases h
    have hs := move_step hm
    cases mv with
    | run i e =>
      simp only [move] at hm
      split at hm
      · rename_i hc
        refine .run i e ⟨hc.1, by simpa using hc.2.1⟩ ?_ hm
        intro m ht
        have := hc.2.2
        rw [ht] at this
        simpa using this
      · cases hm
    | _ =>
      obtain ⟨a, ha⟩ := step_iff.1 hs
      simp only [move] at hm
      split at hm
      · rename_i hc
        first
        | (obtain ⟨o, ho⟩ := out_ret hc.1
           cases hm
           first
           | exact .malloc _ _ o ho hc.2.1 fun pc hp => by
               have := List.all_eq_true.mp (hc.2.2 (by trivial)) pc hp
               simpa using this
           | exact .free _ _ o ho hc.2
           | exact .size _ _ o ho hc.2
           | exact .leaks _ o ho fun pc hp => by
               have := List.all_eq_true.mp (hc.2 (by trivial)) pc hp
               simpa using this)
        | (obtain ⟨st, h1, h2⟩ := bind_iff.1 (Option.some.inj hm)
           cases h2
           exact .write _ _ _ hc.1 hc.2 h1)
      · cases hm
  · cases h

/-- Two interleaved allocations to their end, one block freed, a leak check, and a size request. -/
def day : List Move :=
  twoMallocs ++ [.free 0 ⟨1008, 5, 50⟩] ++ pieces 0 6 0 70 ++ [.leaks 2] ++ pieces 2 3 0 70 ++ [.size 1 ⟨2008, 9, 60⟩] ++ pieces 1 2 0 70

/-- What can be compared of the last state. -/
def seen (s : Option Sys) : Option (List Pc × List Blk × Option Nat) := view (s.map .ok)

theorem day_ends : seen (Fair.runs exec day (boot 3)) =
    some ([.ret .unit, .ret (.size 9), .ret (.leaked 9 [(2008, 9)])], [⟨2008, 9, 60⟩], none) := by
  decide +kernel

/-- A fair execution in which two threads are in the middle of their calls. -/
example : ∃ x : Exec LStep, Reach true 3 (x.st 0) ∧ FairRun x ∧ ∃ k, At (x.st k) 0 (.mPut 1000 5 50) := by
  cases e : Fair.runs exec day (boot 3) with
  | none => have := day_ends; rw [e] at this; cases this
  | some u =>
    have hu : u.ths = [.ret .unit, .ret (.size 9), .ret (.leaked 9 [(2008, 9)])] := by
      have := day_ends
      rw [e] at this
      exact (Prod.mk.inj (Option.some.inj this)).1
    obtain ⟨x, h1, h2, h3, h4, _⟩ := Fair.exists_finite (step := LStep) label exec exec_sound e
    refine ⟨x, h1 ▸ .start _ (boot_start 3), fun i hi => ?_, 7, ?_⟩
    · obtain ⟨k, hk, ev, r, ha⟩ := hi day.length
      rw [h2 k hk] at ha
      unfold act at ha
      rw [hu] at ha
      match i with
      | 0 => cases ha
      | 1 => cases ha
      | 2 => cases ha
      | i + 3 => cases ha
    · show (x.st 7).ths[0]? = some (.mPut 1000 5 50)
      rw [h4]
      have : (((Fair.runs exec (day.take 7) (boot 3)).getD (boot 3)).ths[0]?) = some (.mPut 1000 5 50) := by decide +kernel
      exact this

end Verif.AllocMt
