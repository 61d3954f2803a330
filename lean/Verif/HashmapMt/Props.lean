import Verif.HashmapMt.Sizes
import Verif.Common.LockedLive
/-! # Theorems: the hash map with a lock, under threads -/
namespace Verif.HashmapMt
open Verif.Locked
open Verif.Hashmap (Map Entry Cfg Ptr Ev R)
open Verif.Hashmap.Spec (FMap GoodCfg)

abbrev Out := Nat × List Ev
abbrev MSys := Sys Map Op Out

/-! ### Specification: a dictionary -/

/-- The call on a dictionary; `none` for `hashmap_foreach`. -/
def Op.plain : Op → Option Hashmap.Op
  | .put k v ok1 ok2 => some (.put k v ok1 ok2)
  | .get k => some (.get k)
  | .remove k => some (.remove k)
  | .clear => some .clear
  | .each _ => none

/-- Calls one after the other on a dictionary `L` (keys up to the user's equality), with results and callbacks: `put`, `get`,
`remove`, `clear` answer as the dictionary does and free what leaves it; `foreach` visits pairs of the dictionary, none twice, and
all of them if its callback never says stop. -/
inductive Follows (c : Cfg) : FMap → List (Op × Out) → FMap → Prop
  | nil (L : FMap) : Follows c L [] L
  | plain (L L' : FMap) (op : Op) (o : Hashmap.Op) (out : Out) (rest : List (Op × Out)) (ho : op.plain = some o)
      (hr : out.1 = (Hashmap.Spec.step c.fnEq L o).2) (he : out.2.Perm (Hashmap.specEvs c L o))
      (h : Follows c (Hashmap.Spec.step c.fnEq L o).1 rest L') : Follows c L ((op, out) :: rest) L'
  | each (L L' : FMap) (cb : List (Ptr × Ptr) → Ptr → Ptr → Bool) (vs left : List (Ptr × Ptr)) (rest : List (Op × Out))
      (hv : (vs ++ left).Perm L) (ht : (∀ seen k v, cb seen k v = true) → left = [])
      (h : Follows c L rest L') : Follows c L ((.each cb, (0, vs.map fun p => .visit p.1 p.2)) :: rest) L'

/-! ### Proof -/

theorem seq_good {c : Cfg} (g : GoodCfg c) : GoodCfg (seq c) := ⟨g.refl, g.symm, g.trans, g.hash⟩

theorem specEvs_seq (c : Cfg) (L : FMap) (o : Hashmap.Op) : Hashmap.specEvs (seq c) L o = Hashmap.specEvs c L o := by
  cases o <;> rfl

theorem sublist_split {α : Type} {a b : List α} (h : a.Sublist b) : ∃ l, (a ++ l).Perm b := by
  induction h with
  | slnil => exact ⟨[], .refl _⟩
  | cons x _ ih =>
    obtain ⟨l, hl⟩ := ih
    exact ⟨x :: l, (List.perm_middle).trans (hl.cons x)⟩
  | cons_cons x _ ih =>
    obtain ⟨l, hl⟩ := ih
    exact ⟨l, hl.cons x⟩

theorem visit_sub {es : List Ev} {l : List (Ptr × Ptr)} (h : es.Sublist (Hashmap.visits l)) :
    ∃ vs : List (Ptr × Ptr), vs.Sublist l ∧ es = vs.map fun p => .visit p.1 p.2 := by
  obtain ⟨vs, h1, h2⟩ := List.sublist_map_iff.mp h
  exact ⟨vs, h1, h2⟩

/-- One call alone. -/
theorem seqStep_ok {c : Cfg} (g : GoodCfg c) {m : Map} {L : FMap} (r : R (seq c) m L) (op : Op) :
    ∃ m' out L', seqStep c m op = some (m', out) ∧ R (seq c) m' L' ∧
      (∀ rest L'', Follows c L' rest L'' → Follows c L ((op, out) :: rest) L'') ∧
      L' = (match op.plain with | some o => (Hashmap.Spec.step c.fnEq L o).1 | none => L) := by
  have plain : ∀ o : Hashmap.Op, op.plain = some o → o ≠ .size → seqStep c m op = Hashmap.step (seq c) m o →
      ∃ m' out L', seqStep c m op = some (m', out) ∧ R (seq c) m' L' ∧
      (∀ rest L'', Follows c L' rest L'' → Follows c L ((op, out) :: rest) L'') ∧
      L' = (match op.plain with | some o => (Hashmap.Spec.step c.fnEq L o).1 | none => L) := by
    intro o ho hs he
    obtain ⟨m', evs, h1, h2, h3⟩ := Hashmap.step_ok (seq_good g) r o
    rw [if_neg hs] at h1
    refine ⟨m', _, _, he.trans h1, h2, fun rest L'' hf => .plain L L'' op o _ rest ho rfl ?_ hf, ?_⟩
    · rw [specEvs_seq] at h3; exact h3
    · rw [ho]; rfl
  cases op with
  | put k v ok1 ok2 => exact plain _ rfl (by intro e; cases e) rfl
  | get k => exact plain _ rfl (by intro e; cases e) rfl
  | remove k => exact plain _ rfl (by intro e; cases e) rfl
  | clear => exact plain _ rfl (by intro e; cases e) rfl
  | each cb =>
    obtain ⟨st', evs, h1, h2⟩ := Hashmap.foreachAll_sub (callback cb) m m.bucketCount 0 [] (by rw [r.inv.len]; omega)
    obtain ⟨vs, h3, h4⟩ := visit_sub h2
    simp only [List.drop_zero] at h3
    obtain ⟨left, hl⟩ := sublist_split h3
    refine ⟨m, (0, evs), L, ?_, r, fun rest L'' hf => ?_, rfl⟩
    · simp only [seqStep, Hashmap.foreach, h1]; rfl
    · rw [h4]
      refine .each L L'' cb vs left rest (hl.trans r.perm) (fun ht => ?_) hf
      obtain ⟨st2, h5⟩ := Hashmap.foreachAll_true (callback cb) (fun st k v => ht st k v) m m.bucketCount 0 [] (by rw [r.inv.len]; omega)
      rw [h1] at h5
      have h6 : evs = _ := (Prod.mk.inj (Option.some.inj h5)).2
      have h7 : evs.length = vs.length := by rw [h4, List.length_map]
      rw [h6] at h7
      simp only [Hashmap.visits, List.length_map, List.drop_zero] at h7
      have h8 := hl.length_eq
      rw [List.length_append, List.length_map] at h8
      have : left.length = 0 := by omega
      exact List.length_eq_zero_iff.mp this

/-- A whole sequential history. -/
theorem seqRun_ok {c : Cfg} (g : GoodCfg c) (ops : List Op) : ∀ {m : Map} {L : FMap}, R (seq c) m L →
    ∃ m' outs L', seqRun (seqStep c) m ops = some (m', outs) ∧ R (seq c) m' L' ∧ Follows c L (ops.zip outs) L' ∧
      outs.length = ops.length := by
  induction ops with
  | nil => intro m L r; exact ⟨m, [], L, rfl, r, .nil L, rfl⟩
  | cons op ops ih =>
    intro m L r
    obtain ⟨m1, out, L1, h1, h2, h3, _⟩ := seqStep_ok g r op
    obtain ⟨m2, outs, L2, h4, h5, h6, h7⟩ := ih h2
    refine ⟨m2, out :: outs, L2, ?_, h5, h3 _ _ h6, by simp [h7]⟩
    simp only [seqRun, h1, Option.bind_some, h4, Option.map_some]

theorem zip_points (l : List (Op × Out)) : (l.map (·.1)).zip (l.map (·.2)) = l := by
  induction l with
  | nil => rfl
  | cons p ps ih => simp only [List.map_cons, List.zip_cons_cons, ih]

/-! ### Theorems -/

/-- However many threads use one map and however they are interleaved: the calls of `put`, `get`, `remove`, `clear` and
`foreach` answer as a dictionary does when the calls are made one after the other, each of them at some moment between its invocation and
its return; and whenever no call is in progress the map holds that dictionary. -/
theorem dictionary_linearizable {c : Cfg} (g : GoodCfg c) {cap : Nat} {ok1 ok2 : Bool} {m : Map}
    (hm : Hashmap.create cap ok1 ok2 = some (some m)) {n : Nat} {x : MSys} (h : Reach (body c) m n x) :
    (∃ L, Follows c [] (points x.trace) L ∧ (x.lock = none → (x.st.buckets.flatten.map fun e => (e.key, e.value)).Perm L)) ∧
    ∀ i, i < x.ths.length → Calls i (own i x.trace) := by
  obtain ⟨⟨s, h1, h2⟩, h3⟩ := linearizable (exec_body c) h
  refine ⟨?_, h3⟩
  obtain ⟨r0, e1, e2, _⟩ := Hashmap.create_terminates (seq c) cap ok1 ok2
  rw [hm] at e1
  obtain ⟨m', outs, L, k1, k2, k3, _⟩ := seqRun_ok g ((points x.trace).map (·.1)) (e2 m (Option.some.inj e1).symm)
  rw [h1] at k1
  obtain ⟨rfl, rfl⟩ := Prod.mk.inj (Option.some.inj k1)
  rw [zip_points] at k3
  exact ⟨L, k3, fun hl => by rw [h2 hl]; exact k2.perm⟩

/-- No call touches memory it should not. -/
theorem no_fault {c : Cfg} (g : GoodCfg c) {cap : Nat} {ok1 ok2 : Bool} {m : Map}
    (hm : Hashmap.create cap ok1 ok2 = some (some m)) {n : Nat} {x : MSys} (h : Reach (body c) m n x) : ¬ Step (body c) x none := by
  intro hs
  obtain ⟨i, op, p, hi, he⟩ := fault_sequential (exec_body c) h hs
  obtain ⟨r0, e1, e2, _⟩ := Hashmap.create_terminates (seq c) cap ok1 ok2
  rw [hm] at e1
  obtain ⟨m', outs, L, k1, _⟩ := seqRun_ok g ((points x.trace).map (·.1) ++ [op]) (e2 m (Option.some.inj e1).symm)
  rw [he] at k1
  cases k1

/-- No deadlock. -/
theorem never_stuck {c : Cfg} {m : Map} {n : Nat} {x : MSys} (h : Reach (body c) m n x) {i : Nat} {t : Th Map Op Out}
    (hi : x.ths[i]? = some t) (ht : t ≠ .idle) :
    ∃ (j : Nat) (u : Th Map Op Out) (y : Option MSys), x.ths[j]? = some u ∧ u ≠ Th.idle ∧ Step (body c) x y ∧
      ∀ z, y = some z → ∃ u', z.ths = x.ths.set j u' :=
  progress (exec_body c) h hi ht

/-- Every call returns, in every fair infinite execution (a thread that can go on again and again goes on), even if the threads
begin new calls for ever. -/
theorem every_call_returns {c : Cfg} (g : GoodCfg c) {cap : Nat} {ok1 ok2 : Bool} {m : Map}
    (hm : Hashmap.create cap ok1 ok2 = some (some m)) {n : Nat} {x : Fair.Exec (LStep (body c))} (h0 : Reach (body c) m n (x.st 0))
    (fair : FairRun x) {k i : Nat} {t : Th Map Op Out} (hi : (x.st k).ths[i]? = some t) (ht : t ≠ .idle) :
    ∃ j o, k ≤ j ∧ (x.st j).ths[i]? = some (.left o) ∧ x.lab j = some (i, none) ∧ (x.st (j + 1)).ths[i]? = some .idle :=
  returns (fun k => no_fault g hm (run_reach h0 k)) h0 fair hi ht

/-- What `hashmap_size`, which does not take the lock, returns at any moment, where `L` is the dictionary after the
calls that have taken effect: its number of keys if no call is in progress; before or after the call in progress, if that is a
`put`, `get`, `remove` or `foreach`; anything from 0 to its number of keys, if it is a `clear`. -/
theorem size_observed {c : Cfg} (g : GoodCfg c) {cap : Nat} {ok1 ok2 : Bool} {m : Map}
    (hm : Hashmap.create cap ok1 ok2 = some (some m)) {n : Nat} {x : MSys} (h : Reach (body c) m n x) :
    ∃ L, Follows c [] (points x.trace) L ∧ (x.lock = none → sizeCall x = L.length) ∧
      ∀ (i : Nat) (op : Op) (p : Prog Map Out), x.ths[i]? = some (Th.inside op p) →
        match op with
        | .clear => sizeCall x ≤ L.length
        | .put k v ok1 ok2 => sizeCall x = L.length ∨ sizeCall x = (Hashmap.Spec.step c.fnEq L (.put k v ok1 ok2)).1.length
        | .remove k => sizeCall x = L.length ∨ sizeCall x = (Hashmap.Spec.step c.fnEq L (.remove k)).1.length
        | _ => sizeCall x = L.length := by
  obtain ⟨r0, e1, e2, _⟩ := Hashmap.create_terminates (seq c) cap ok1 ok2
  rw [hm] at e1
  have hR := e2 m (Option.some.inj e1).symm
  let Q : Map → Op → Map → Prop := fun s op y => ∀ L, R (seq c) s L →
    match op with
    | .clear => y.size ≤ L.length
    | .put k v ok1 ok2 => y.size = L.length ∨ y.size = (Hashmap.Spec.step c.fnEq L (.put k v ok1 ok2)).1.length
    | .remove k => y.size = L.length ∨ y.size = (Hashmap.Spec.step c.fnEq L (.remove k)).1.length
    | _ => y.size = L.length
  have hq : ∀ ops s os op, seqRun (seqStep c) m ops = some (s, os) → Along (Q s op) (body c op) s := by
    intro ops s os op hrun
    obtain ⟨m', outs, L, k1, k2, k3, _⟩ := seqRun_ok g ops hR
    rw [hrun] at k1
    obtain ⟨rfl, rfl⟩ := Prod.mk.inj (Option.some.inj k1)
    obtain ⟨m2, out, L2, j1, j2, _, j3⟩ := seqStep_ok g k2 op
    rw [← exec_body] at j1
    cases op with
    | put k v a b =>
      refine Along.imp (along_put c k v a b s m2 out j1) fun y hy L' hL' => ?_
      obtain ⟨m3, evs, q1, q2, _⟩ := Hashmap.step_ok (seq_good g) hL' (.put k v a b)
      rw [exec_body] at j1
      simp only [seqStep] at j1
      rw [j1] at q1
      obtain ⟨rfl, _⟩ := Prod.mk.inj (Option.some.inj q1)
      exact hy.imp (fun e => e.trans hL'.size_eq) fun e => e.trans (R.size_eq q2)
    | remove k =>
      refine Along.imp (along_remove c k s m2 out j1) fun y hy L' hL' => ?_
      obtain ⟨m3, evs, q1, q2, _⟩ := Hashmap.step_ok (seq_good g) hL' (.remove k)
      rw [exec_body] at j1
      simp only [seqStep] at j1
      rw [j1] at q1
      obtain ⟨rfl, _⟩ := Prod.mk.inj (Option.some.inj q1)
      exact hy.imp (fun e => e.trans hL'.size_eq) fun e => e.trans (R.size_eq q2)
    | get k =>
      refine Along.imp (along_get c k s) fun y hy L' hL' => ?_
      subst hy
      exact hL'.size_eq
    | each cb =>
      refine Along.imp (along_each cb s) fun y hy L' hL' => ?_
      subst hy
      exact hL'.size_eq
    | clear =>
      have k2' : R c s L := ⟨⟨k2.inv.pow, k2.inv.len, k2.inv.place, k2.inv.hash, k2.inv.size, k2.inv.bound⟩, k2.perm, k2.distinct⟩
      refine Along.imp (along_clear c s L k2') fun y hy L' hL' => ?_
      show y.size ≤ L'.length
      rw [← hL'.size_eq]
      exact hy
  obtain ⟨s, h1, h2, h3⟩ := observed (exec_body c) hq h
  obtain ⟨m', outs, L, k1, k2, k3, _⟩ := seqRun_ok g ((points x.trace).map (·.1)) hR
  rw [h1] at k1
  obtain ⟨rfl, rfl⟩ := Prod.mk.inj (Option.some.inj k1)
  rw [zip_points] at k3
  refine ⟨L, k3, fun hl => ?_, fun i op p hi => ?_⟩
  · unfold sizeCall; rw [h2 hl]; exact k2.size_eq
  · exact h3 i op p hi L k2

/-! ### `hashmap_size` is not linearizable; examples -/

/-- 8 buckets, two threads. -/
def start8 : MSys := ⟨⟨List.replicate 8 [], 8, 0⟩, [.idle, .idle], none, []⟩

/-- Thread 0 puts 1 and 2, both calls return; then it clears the map, and is interrupted in the middle. -/
def halfCleared : List (Nat × Option Op) :=
  [(0, some (.put 1 11 true true))] ++ List.replicate 30 (0, none) ++ [(0, some (.put 2 12 true true))] ++
  List.replicate 30 (0, none) ++ [(0, some .clear)] ++ List.replicate 22 (0, none)

/-- What can be compared. -/
def view (x : MSys) : List (Nat × Nat × Option Nat) := x.trace.map fun
  | .call i _ => (0, i, none)
  | .point i _ o => (1, i, some o.1)
  | .ret i o => (2, i, some o.1)

/-- `hashmap_size` returns 1 in a history in which two keys were put (both calls have returned) and a `clear` is in
progress: neither before nor after the `clear` does the map have one key. -/
theorem size_not_linearizable : ∃ x : MSys, Reach (body Hashmap.intCfg) ⟨List.replicate 8 [], 8, 0⟩ 2 x ∧
    view x = [(0, 0, none), (1, 0, some 0), (2, 0, some 0), (0, 0, none), (1, 0, some 0), (2, 0, some 0), (0, 0, none)] ∧
    sizeCall x = 1 ∧
    (Hashmap.Spec.run Hashmap.intCfg.fnEq [] [.put 1 11 true true, .put 2 12 true true]).1.length = 2 ∧
    (Hashmap.Spec.run Hashmap.intCfg.fnEq [] [.put 1 11 true true, .put 2 12 true true, .clear]).1.length = 0 := by
  refine ⟨play (body Hashmap.intCfg) start8 halfCleared, play_reach _ .start, ?_, ?_, ?_, ?_⟩ <;> decide +kernel

/-- Two threads, overlapping calls. -/
def demo : List (Nat × Option Op) :=
  [(0, some (.put 1 11 true true)), (0, none), (0, none), (1, some (.put 1 22 true true)), (1, none), (0, none)] ++
  List.replicate 20 (0, none) ++ [(1, none), (0, some (.get 1)), (0, none)] ++ List.replicate 20 (1, none) ++
  List.replicate 20 (0, none)

/-- The second `put` replaces the first value, the `get` sees it. -/
example : view (play (body Hashmap.intCfg) start8 demo) =
    [(0, 0, none), (0, 1, none), (1, 0, some 0), (2, 0, some 0), (0, 0, none), (1, 1, some 11), (2, 1, some 11),
     (1, 0, some 22), (2, 0, some 22)] := by decide +kernel

example : Hashmap.create 4 true true = some (some ⟨List.replicate 8 [], 8, 0⟩) := by decide +kernel
example : GoodCfg Hashmap.intCfg := Hashmap.intCfg_good

/-- The lock is needed: two threads put different keys that fall in one bucket; both see the end of the chain, the second
overwrites the first's entry.  Both calls succeed, `size` is 2, but key 1 is gone. -/
theorem lock_needed :
    (ended (unlocked (body Hashmap.collideCfg (.put 1 11 true true)) (body Hashmap.collideCfg (.put 2 12 true true))
      (List.replicate 3 true ++ List.replicate 30 false ++ List.replicate 30 true) ⟨List.replicate 8 [], 8, 0⟩)).map
      (fun t => (t.1.size, (t.1.buckets.flatten.map fun e => (e.key, e.value)), t.2.1.1, t.2.2.1)) =
    some (2, [(1, 11)], 0, 0) := by decide +kernel

/-- A fair execution in which, at some time, both threads are in a call. -/
example : ∃ x : Fair.Exec (LStep (body Hashmap.intCfg)), Reach (body Hashmap.intCfg) ⟨List.replicate 8 [], 8, 0⟩ 2 (x.st 0) ∧ FairRun x ∧
    ∃ k, busy (x.st k).ths[0]? = true ∧ busy (x.st k).ths[1]? = true := by
  obtain ⟨x, h0, hf, k, hk⟩ := play_fair (body := body Hashmap.intCfg) (s := start8) (demo.take 6) (demo.drop 6) (by
    rw [List.take_append_drop]; decide +kernel)
  refine ⟨x, by rw [h0]; exact .start, hf, k, ?_⟩
  rw [hk]
  decide +kernel

end Verif.HashmapMt
