import Verif.FileLoggerMt.Model
import Verif.FileLogger.Props
import Verif.Common.LockedLive
/-!
# C103: any number of threads may log at the same time, if the logger has a lock
-/
namespace Verif.FileLoggerMt
open Verif.Locked
open Verif.MsgQueue (Code encHdr)
open Verif.FileLogger (realloc printed prec Cache CacheOk IsObj IsMsg Carries)

/-! ### Specification -/

/-- What one call may do: it pushes its own message, whole, once - or, if "try my best" is set and the first push failed,
twice - and answers what the last push answered (without memory: no push, `BUF_NOT_ENOUGH`); the lost file gets the text
of the message (up to a NUL) and two line ends exactly if the message was not accepted and "try my best" is set. -/
structure Did (best : Bool) (c : Call) (ps : List (Mem × Code)) (lost : List Byte) (st : Code) : Prop where
  whole : ∀ p ∈ ps, IsObj p.1 c.msg
  codes : (ps.map (·.2) = [] ∧ st = .bufNotEnough ∧ ∃ n, c.msg.length ≤ n ∧ c.mem (16 + n) = none) ∨
    (ps.map (·.2) = [c.push 0] ∧ st = c.push 0 ∧ (c.push 0 = .success ∨ best = false)) ∨
    (ps.map (·.2) = [c.push 0, c.push 1] ∧ st = c.push 1 ∧ c.push 0 ≠ .success ∧ best = true)
  lost : lost = if st ≠ .success ∧ best = true ∧ c.lostOk = true then c.msg.takeWhile (· ≠ 0) ++ [10, 10] else []

/-- What a sequence of calls may do, one after the other. -/
inductive Hist (best : Bool) : List (Call × Code) → List (Mem × Code) → List Byte → Prop
  | nil : Hist best [] [] []
  | snoc {h : List (Call × Code)} {ps qs : List (Mem × Code)} {ls ms : List Byte} {c : Call} {st : Code}
      (hh : Hist best h ps ls) (hd : Did best c qs ms st) : Hist best (h ++ [(c, st)]) (ps ++ qs) (ls ++ ms)

/-! ### One call -/

/-- The handle between calls: the cache is the only block. -/
structure Good (s : Sh) (obj : Mem) : Prop where
  blk : s.heap s.ptr = some obj
  ok : CacheOk ⟨obj, s.cap⟩
  only : ∀ a, a ≠ s.ptr → s.heap a = none
  lt : s.ptr < s.next

theorem init_good : Good Sh.init (List.replicate (16 + 2048) 0) := by
  refine ⟨rfl, FileLogger.cache_init, fun a ha => ?_, by decide⟩
  show (if a = 0 then _ else none) = none
  rw [if_neg (show a ≠ 0 from ha)]

theorem exec_reallocP (p n : Nat) (junk : Option Mem) (s : Sh) {old : Mem} (h : s.heap p = some old) :
    exec (reallocP p n junk) s = match junk with
      | none => some (s, none)
      | some j => some ({ s with
          heap := fun a => if a = s.next then some (realloc old n j) else if a = p then none else s.heap a
          next := s.next + 1 }, some s.next) := by
  cases junk <;> simp [reallocP, exec, h]

theorem exec_storeP (p off : Nat) (bs : List Byte) (s : Sh) {m m' : Mem} (h : s.heap p = some m) (h' : m.store off bs = some m') :
    exec (storeP p off bs) s = some ({ s with heap := fun a => if a = p then some m' else s.heap a }, ()) := by
  simp [storeP, exec_change, h, h']

theorem exec_pushP (p : Nat) (c : Code) (s : Sh) {m : Mem} (h : s.heap p = some m) :
    exec (pushP p c) s = some ({ s with pushed := s.pushed ++ [(m, c)] }, ()) := by
  simp [pushP, exec_change, h]

/-- Enlarging the cache. -/
theorem exec_growP (c : Call) {s : Sh} {obj : Mem} (g : Good s obj) :
    (exec (growP c) s = some (s, false) ∧ ∃ n, c.msg.length ≤ n ∧ c.mem (16 + n) = none) ∨
    ∃ s' obj', exec (growP c) s = some (s', true) ∧ Good s' obj' ∧ c.msg.length ≤ s'.cap ∧ s'.pushed = s.pushed ∧ s'.lost = s.lost := by
  have hg := FileLogger.grow_ok g.ok (size := c.msg.length) (by have := c.small; omega) c.memOk
  unfold FileLogger.grow at hg
  unfold growP
  rw [exec_bind]
  simp only [rdCap, exec_read, Option.bind_some]
  by_cases hc : c.msg.length > s.cap
  · rw [if_pos hc] at hg ⊢
    simp only [exec_bind, rdPtr, exec_read, Option.bind_some] at hg ⊢
    generalize (Integer.roundup (BitVec.ofNat 32 c.msg.length)).toNat = n at hg ⊢
    rw [exec_reallocP _ _ _ _ g.blk]
    cases hm : c.mem (16 + n) with
    | none =>
      rw [hm] at hg
      left
      refine ⟨rfl, ?_⟩
      rcases hg with ⟨_, _, h⟩ | ⟨k', h, _⟩
      · exact h
      · simp at h
    | some j =>
      rw [hm] at hg
      right
      rcases hg with ⟨h, _⟩ | ⟨k', h, h1, h2⟩
      · simp at h
      · simp only [Option.some.injEq] at h
        subst h
        simp only [Option.bind_some, exec_bind, exec_change, Option.map_some, exec_pure]
        refine ⟨_, _, rfl, ⟨?_, h1, ?_, ?_⟩, h2, rfl, rfl⟩
        · simp
        · intro a ha
          have := g.only a
          simp only at ha ⊢
          rw [if_neg ha]
          split
          · rfl
          · next h => exact this h
        · simp
  · rw [if_neg hc]
    exact .inr ⟨s, obj, rfl, g, by omega, rfl, rfl⟩

/-- One round. -/
theorem exec_once (c : Call) (i : Nat) {s : Sh} {obj : Mem} (g : Good s obj) :
    (exec (once c i) s = some (s, none) ∧ ∃ n, c.msg.length ≤ n ∧ c.mem (16 + n) = none) ∨
    ∃ s' obj' o, exec (once c i) s = some (s', some (c.push i)) ∧ Good s' obj' ∧ c.msg.length ≤ s'.cap ∧ IsObj o c.msg ∧
      s'.pushed = s.pushed ++ [(o, c.push i)] ∧ s'.lost = s.lost := by
  unfold once
  rw [exec_bind]
  rcases exec_growP c g with ⟨e, hn⟩ | ⟨s1, obj1, e, g1, hcap, hp, hl⟩
  · left
    rw [e]
    exact ⟨rfl, hn⟩
  · right
    rw [e]
    obtain ⟨o, eo, ho, hok⟩ := FileLogger.fill_ok g1.ok hcap
    simp only at eo
    obtain ⟨m1, e1, e2⟩ := Option.bind_eq_some_iff.1 eo
    simp only [Option.bind_some, if_true, exec_bind, rdPtr, exec_read]
    rw [exec_storeP _ _ _ _ g1.blk e1]
    simp only [Option.bind_some]
    rw [exec_storeP _ _ _ _ (m := m1) (by simp) e2]
    simp only [Option.bind_some]
    rw [exec_pushP _ _ _ (m := o) (by simp)]
    simp only [Option.bind_some, exec_pure]
    refine ⟨_, o, o, rfl, ⟨by simp, hok, ?_, g1.lt⟩, hcap, ho, by simp [hp], hl⟩
    intro a ha
    simp only at ha ⊢
    rw [if_neg ha, if_neg ha]
    exact g1.only a ha

/-- With room in the cache there is no need for memory. -/
theorem exec_once_room (c : Call) (i : Nat) {s : Sh} {obj : Mem} (g : Good s obj) (h : c.msg.length ≤ s.cap) :
    ∃ s' obj' o, exec (once c i) s = some (s', some (c.push i)) ∧ Good s' obj' ∧ c.msg.length ≤ s'.cap ∧ IsObj o c.msg ∧
      s'.pushed = s.pushed ++ [(o, c.push i)] ∧ s'.lost = s.lost := by
  rcases exec_once c i g with ⟨e, _⟩ | h'
  · exfalso
    have hg : exec (growP c) s = some (s, true) := by
      unfold growP
      rw [exec_bind]
      simp only [rdCap, exec_read, Option.bind_some]
      rw [if_neg (by omega)]
      rfl
    unfold once at e
    rw [exec_bind, hg] at e
    simp only [Option.bind_some, if_true, exec_bind, exec_pure] at e
    simp only [Option.bind_eq_some_iff] at e
    obtain ⟨_, _, _, _, _, _, _, _, _, _, _, _, h⟩ := e
    simp at h
  · exact h'

/-- One call does what it may do, and leaves the handle good. -/
theorem exec_body (best : Bool) (c : Call) {s : Sh} {obj : Mem} (g : Good s obj) :
    ∃ s' obj' qs ms st, exec (body best c) s = some (s', st) ∧ Good s' obj' ∧ Did best c qs ms st ∧
      s'.pushed = s.pushed ++ qs ∧ s'.lost = s.lost ++ ms := by
  have hpr : printed c.msg (prec (BitVec.ofNat 32 c.msg.length)) = some (c.msg.takeWhile (· ≠ 0)) := by
    have hs := c.small
    have hN : (BitVec.ofNat 32 c.msg.length).toNat = c.msg.length := by rw [BitVec.toNat_ofNat, Nat.mod_eq_of_lt (by omega)]
    unfold prec
    rw [if_neg (by rw [BitVec.toInt_eq_toNat_of_lt (by omega)]; omega), hN]
    exact FileLogger.printed_ok c.msg
  -- the end of the call
  have fin : ∀ (s1 : Sh) (obj1 : Mem) (qs : List (Mem × Code)) (st : Code),
      exec (loop best c 2 0 .bufNotEnough) s = some (s1, st) → Good s1 obj1 → s1.pushed = s.pushed ++ qs → s1.lost = s.lost →
      (∀ ms, ms = (if st ≠ .success ∧ best = true ∧ c.lostOk = true then c.msg.takeWhile (· ≠ 0) ++ [10, 10] else []) →
        Did best c qs ms st) →
      ∃ s' obj' qs ms st, exec (body best c) s = some (s', st) ∧ Good s' obj' ∧ Did best c qs ms st ∧
        s'.pushed = s.pushed ++ qs ∧ s'.lost = s.lost ++ ms := by
    intro s1 obj1 qs st e g1 hp hl hd
    unfold body
    rw [exec_bind, e]
    simp only [Option.bind_some]
    by_cases hc : st ≠ .success ∧ best = true ∧ c.lostOk = true
    · rw [if_pos hc]
      simp only [exec_bind, exec_change, hpr, Option.map_some, Option.bind_some, exec_pure]
      refine ⟨_, obj1, qs, c.msg.takeWhile (· ≠ 0) ++ [10, 10], st, rfl, ⟨g1.blk, g1.ok, g1.only, g1.lt⟩,
        hd _ (by rw [if_pos hc]), hp, by simp [hl]⟩
    · rw [if_neg hc]
      exact ⟨s1, obj1, qs, [], st, rfl, g1, hd _ (by rw [if_neg hc]), hp, by simp [hl]⟩
  rcases exec_once c 0 g with ⟨e, hn⟩ | ⟨s1, obj1, o, e, g1, hcap, ho, hp, hl⟩
  · refine fin s obj [] .bufNotEnough ?_ g (by simp) rfl ?_
    · unfold loop
      rw [exec_bind, e]
      rfl
    · intro ms hms
      exact ⟨by simp, .inl ⟨rfl, rfl, hn⟩, hms⟩
  · by_cases h1 : c.push 0 = .success ∨ best = false
    · refine fin s1 obj1 [(o, c.push 0)] (c.push 0) ?_ g1 hp hl ?_
      · unfold loop
        rw [exec_bind, e]
        simp only [Option.bind_some]
        rcases h1 with h1 | h1
        · rw [if_pos h1]; rfl
        · split
          · rfl
          · rw [h1]; rfl
      · intro ms hms
        exact ⟨by simp; exact ho, .inr (.inl ⟨rfl, rfl, h1⟩), hms⟩
    · have h2 : c.push 0 ≠ .success := fun h => h1 (.inl h)
      have h3 : best = true := by
        cases hb : best with
        | true => rfl
        | false => exact absurd (.inr hb) h1
      obtain ⟨s2, obj2, o2, e2, g2, hcap2, ho2, hp2, hl2⟩ := exec_once_room c 1 g1 hcap
      refine fin s2 obj2 [(o, c.push 0), (o2, c.push 1)] (c.push 1) ?_ g2 (by rw [hp2, hp]; simp) (by rw [hl2, hl]) ?_
      · unfold loop
        rw [exec_bind, e]
        simp only [Option.bind_some]
        rw [if_neg h2, h3]
        simp only [Bool.not_true, Bool.false_eq_true, if_false]
        unfold loop
        rw [exec_bind, e2]
        simp only [Option.bind_some, Bool.not_true, Bool.false_eq_true, if_false, loop]
        split <;> rfl
      · intro ms hms
        exact ⟨by simp; exact ⟨ho, ho2⟩, .inr (.inr ⟨rfl, rfl, h2, h3⟩), hms⟩

/-! ### All threads -/

/-- The sequential meaning of a call. -/
def step (best : Bool) (s : Sh) (c : Call) : Option (Sh × Code) := exec (body best c) s

theorem seq_hist (best : Bool) : ∀ (cs : List Call) {s : Sh} {obj : Mem} {h : List (Call × Code)}, Good s obj →
    Hist best h s.pushed s.lost → ∃ s' obj' os, seqRun (step best) s cs = some (s', os) ∧ Good s' obj' ∧ os.length = cs.length ∧
      Hist best (h ++ cs.zip os) s'.pushed s'.lost := by
  intro cs
  induction cs with
  | nil => intro s obj h g hh; exact ⟨s, obj, [], rfl, g, rfl, by simpa using hh⟩
  | cons c cs ih =>
    intro s obj h g hh
    obtain ⟨s1, obj1, qs, ms, st, e, g1, hd, hp, hl⟩ := exec_body best c g
    obtain ⟨s2, obj2, os, e2, g2, hlen, hh2⟩ := ih g1 (h := h ++ [(c, st)]) (by rw [hp, hl]; exact .snoc hh hd)
    refine ⟨s2, obj2, st :: os, ?_, g2, by simp [hlen], by simpa using hh2⟩
    have e' : step best s c = some (s1, st) := e
    simp only [seqRun, e', Option.bind_some]
    have : seqRun (step best) s1 cs = some (s2, os) := e2
    simp [this]

theorem zip_points {α β : Type} (l : List (α × β)) : (l.map (·.1)).zip (l.map (·.2)) = l := by
  induction l with
  | nil => rfl
  | cons a l ih => simp [ih]

/-- **C103.** However many threads log at the same time and however they are interleaved: in the order in which the calls count
(each at a moment between its invocation and its return) every call pushes its own message whole and nothing else, the pushes
do not mix, every answer is the one of the call's own push, and the lost file holds the texts of the messages that were not
accepted, whole and in that order. -/
theorem messages_whole {best : Bool} {n : Nat} {x : Sys Sh Call Code} (h : Reach (body best) Sh.init n x) :
    (∃ ps ls, Hist best (points x.trace) ps ls ∧ (x.lock = none → x.st.pushed = ps ∧ x.st.lost = ls)) ∧
    ∀ i, i < x.ths.length → Calls i (own i x.trace) := by
  obtain ⟨⟨s, h1, h2⟩, h3⟩ := linearizable (step := step best) (fun _ _ => rfl) h
  refine ⟨?_, h3⟩
  obtain ⟨s', obj', os, e, _, hlen, hh⟩ := seq_hist best ((points x.trace).map (·.1)) init_good (h := []) .nil
  rw [h1] at e
  obtain ⟨rfl, rfl⟩ := Prod.mk.inj (Option.some.inj e)
  rw [List.nil_append, zip_points] at hh
  exact ⟨_, _, hh, fun hl => by rw [h2 hl]; exact ⟨rfl, rfl⟩⟩

/-- **C103.** Nothing undefined happens: no access outside the cache, no use of a cache that another thread has enlarged. -/
theorem no_fault {best : Bool} {n : Nat} {x : Sys Sh Call Code} (h : Reach (body best) Sh.init n x) :
    ¬ Step (body best) x none := by
  intro hs
  obtain ⟨i, op, p, _, e⟩ := fault_sequential (step := step best) (fun _ _ => rfl) h hs
  obtain ⟨s', obj', os, e', _⟩ := seq_hist best ((points x.trace).map (·.1) ++ [op]) init_good (h := []) .nil
  rw [e] at e'
  cases e'

/-- **C103.** No memory is lost: whenever no call holds the lock the cache is the only block, and it has room for what its
capacity says. -/
theorem one_cache {best : Bool} {n : Nat} {x : Sys Sh Call Code} (h : Reach (body best) Sh.init n x) (hl : x.lock = none) :
    ∃ obj, x.st.heap x.st.ptr = some obj ∧ obj.length = 16 + x.st.cap ∧ ∀ a, x.st.heap a ≠ none → a = x.st.ptr := by
  obtain ⟨⟨s, h1, h2⟩, _⟩ := linearizable (step := step best) (fun _ _ => rfl) h
  obtain ⟨s', obj', os, e, g, _⟩ := seq_hist best ((points x.trace).map (·.1)) init_good (h := []) .nil
  rw [h1] at e
  obtain ⟨rfl, rfl⟩ := Prod.mk.inj (Option.some.inj e)
  rw [h2 hl]
  refine ⟨obj', g.blk, g.ok.size, fun a ha => ?_⟩
  exact Classical.byContradiction fun hne => ha (g.only a hne)

/-- **C103.** No deadlock. -/
theorem never_stuck {best : Bool} {n : Nat} {x : Sys Sh Call Code} (h : Reach (body best) Sh.init n x) {i : Nat}
    {t : Th Sh Call Code} (hi : x.ths[i]? = some t) (ht : t ≠ .idle) :
    ∃ (j : Nat) (u : Th Sh Call Code) (y : Option (Sys Sh Call Code)), x.ths[j]? = some u ∧ u ≠ Th.idle ∧ Step (body best) x y ∧
      ∀ z, y = some z → ∃ u', z.ths = x.ths.set j u' :=
  progress (step := step best) (fun _ _ => rfl) h hi ht

/-- **C103** (liveness): in every fair infinite execution - a thread that can go on again and again goes on; threads may log for ever -
every call of `file_logger_log` returns. -/
theorem every_call_returns {best : Bool} {n : Nat} {x : Fair.Exec (LStep (body best))} (h0 : Reach (body best) Sh.init n (x.st 0))
    (fair : FairRun x) {k i : Nat} {t : Th Sh Call Code} (hi : (x.st k).ths[i]? = some t) (ht : t ≠ .idle) :
    ∃ m o, k ≤ m ∧ (x.st m).ths[i]? = some (.left o) ∧ x.lab m = some (i, none) ∧ (x.st (m + 1)).ths[i]? = some .idle :=
  returns (fun k => no_fault (run_reach h0 k)) h0 fair hi ht

/-- The objects carry these messages, one by one. -/
inductive Objs : List Mem → List (List Byte) → Prop where
  | nil : Objs [] []
  | snoc {os : List Mem} {ds : List (List Byte)} {o : Mem} {d : List Byte} : Objs os ds → IsObj o d → Objs (os ++ [o]) (ds ++ [d])

/-- **C103** (exactly once): the pushes the queue accepted are, one by one and in the order of the calls, the messages of the
calls that answered success: a message whose call failed is not in the queue, a message whose call succeeded is in it
once. -/
theorem accepted_once {best : Bool} {h : List (Call × Code)} {ps : List (Mem × Code)} {ls : List Byte} (hh : Hist best h ps ls) :
    Objs ((ps.filter (·.2 = .success)).map (·.1)) ((h.filter (·.2 = .success)).map (·.1.msg)) := by
  induction hh with
  | nil => exact .nil
  | @snoc h ps qs ls ms c st hh hd ih =>
    rw [List.filter_append, List.map_append, List.filter_append, List.map_append]
    rcases hd.codes with ⟨h1, h2, _⟩ | ⟨h1, h2, _⟩ | ⟨h1, h2, h3, _⟩
    · have hq : qs = [] := List.map_eq_nil_iff.1 h1
      subst hq h2
      simpa using ih
    · obtain ⟨⟨o, q⟩, rfl, h6⟩ := List.map_eq_singleton_iff.1 h1
      subst h6 h2
      by_cases hs : c.push 0 = .success
      · simp only [List.filter_cons, hs, decide_true, if_true, List.filter_nil, List.map_cons, List.map_nil]
        exact .snoc ih (hd.whole _ (List.mem_singleton_self _))
      · simp only [List.filter_cons, hs, decide_false, Bool.false_eq_true, if_false, List.filter_nil, List.map_nil, List.append_nil]
        exact ih
    · obtain ⟨⟨o1, q1⟩, t, rfl, h4, h5⟩ := List.map_eq_cons_iff.1 h1
      obtain ⟨⟨o2, q2⟩, rfl, h6⟩ := List.map_eq_singleton_iff.1 h5
      subst h4 h6 h2
      by_cases hs : c.push 1 = .success
      · simp only [List.filter_cons, hs, h3, decide_true, decide_false, Bool.false_eq_true, if_false, if_true, List.filter_nil,
          List.map_cons, List.map_nil]
        exact .snoc ih (hd.whole (o2, c.push 1) (by simp))
      · simp only [List.filter_cons, hs, h3, decide_false, Bool.false_eq_true, if_false, List.filter_nil, List.map_nil,
          List.append_nil]
        exact ih

/-- What the queue's consumer sees of such an object is the message (C65 takes it from there to the files). -/
theorem objs_carry {os : List Mem} {ds : List (List Byte)} (h : Objs os ds) (hd : ∀ d ∈ ds, d.length < 2 ^ 31) :
    ∃ ms : List MsgHandler.Msg, ms.map (·.obj) = os ∧ Carries (ms.map MsgHandler.Spec.content) ds := by
  have app : ∀ {a : List Mem} {b : List (List Byte)} {m : Mem} {d : List Byte}, Carries a b → IsMsg m d → Carries (a ++ [m]) (b ++ [d]) := by
    intro a b m d h hm
    induction h with
    | nil => exact .cons hm .nil
    | cons h1 _ ih => exact .cons h1 ih
  induction h with
  | nil => exact ⟨[], rfl, .nil⟩
  | @snoc os ds o d _ ho ih =>
    obtain ⟨ms, e, hc⟩ := ih fun d hd' => hd d (by simp [hd'])
    obtain ⟨m, em, hm⟩ := FileLogger.isObj_content ho (hd d (by simp))
    refine ⟨ms ++ [m], by simp [e, em], ?_⟩
    rw [List.map_append]
    exact app hc hm

/-- **C103 and C65 together, from the calls of many threads to the files.** Let `x` be a reachable state of any number of threads
logging with a lock, no thread in a call's locked part, and `s` a reachable state of the queue and its worker to which exactly the
pushes of these threads have been made. Then the files hold, cut as in C65, the lines of the first `k` of the messages whose calls
answered success - in the order in which the calls count, each once and whole, none of a call that failed; of all of them
once the worker sleeps. -/
theorem threads_to_files {best : Bool} {n : Nat} {x : Sys Sh Call Code} (h : Reach (body best) Sh.init n x) (hl : x.lock = none)
    {s : MsgHandler.Sys} (hs : MsgHandler.Reach s) (hp : s.prod = .idle)
    (link : s.results.map (fun r => (r.1.obj, r.2)) = x.st.pushed)
    {c : FileLogger.Cfg} {f p : List Byte} (hc : FileLogger.CfgOk c f p) {tz : Int} (before : List Byte → Option (List Byte))
    {env : Nat → FileLogger.Env} (he : ∀ i, FileLogger.EnvOk tz (env i) ∧ (env i).openOk = true ∧ (env i).wr = none) :
    let ds := ((points x.trace).filter (·.2 = .success)).map (·.1.msg)
    ∃ k w gs, k = s.delivered.length ∧
      FileLogger.handleAll c tz (FileLogger.W.init before) (FileLogger.handled env s.delivered) = some w ∧
      FileLogger.Spec.Cut c.maxLen (((ds.take k).filter (· ≠ [])).map FileLogger.Spec.line) gs ∧
      w.sess.map Prod.snd = gs.map List.flatten ∧
      (∀ n, w.fs n = FileLogger.Spec.replay before w.sess n) ∧
      (MsgHandler.Spec.Asleep s → ds.take k = ds) := by
  intro ds
  obtain ⟨⟨ps, ls, hh, hx⟩, _⟩ := messages_whole h
  obtain ⟨rfl, rfl⟩ := hx hl
  have ho := accepted_once hh
  obtain ⟨ms, e, hcar⟩ := objs_carry ho (by
    intro d hd
    obtain ⟨q, _, rfl⟩ := List.mem_map.1 hd
    exact q.1.small)
  have hacc : ∀ (r : List (MsgHandler.Msg × Code)) (ms : List MsgHandler.Msg),
      ms.map (·.obj) = ((r.map (fun r => (r.1.obj, r.2))).filter (·.2 = .success)).map (·.1) →
      MsgHandler.Spec.accepted r = ms.map MsgHandler.Spec.content := by
    intro r
    induction r with
    | nil =>
      intro ms h
      simp only [List.map_nil, List.filter_nil, List.map_eq_nil_iff] at h
      subst h
      rfl
    | cons a r ih =>
      intro ms h
      obtain ⟨m, q⟩ := a
      by_cases hq : q = .success
      · simp only [List.map_cons, List.filter_cons, hq, decide_true, if_true] at h
        obtain ⟨m', ms', rfl, h1, h2⟩ := List.map_eq_cons_iff.1 h
        have h3 := ih ms' h2
        have h4 : MsgHandler.Spec.content m = MsgHandler.Spec.content m' := by
          unfold MsgHandler.Spec.content
          rw [h1]
        simp only [MsgHandler.Spec.accepted] at h3
        simp only [MsgHandler.Spec.accepted, List.filterMap_cons, hq, if_true, List.map_cons, h3, h4]
      · simp only [List.map_cons, List.filter_cons, hq, decide_false, Bool.false_eq_true, if_false] at h
        have h3 := ih ms h
        simp only [MsgHandler.Spec.accepted] at h3
        simp only [MsgHandler.Spec.accepted, List.filterMap_cons, hq, if_false, h3]
  have hcar' : Carries (MsgHandler.Spec.accepted s.results ++ MsgHandler.Spec.inProgress s.prod) ds := by
    rw [hp, hacc s.results ms (by rw [e, link])]
    simpa [MsgHandler.Spec.inProgress] using hcar
  obtain ⟨k, w, gs, h1, h2, h3, h4, h5, h6⟩ := FileLogger.end_to_end hc before hs hcar' he
  exact ⟨k, w, gs, h1, h2, h3, h4, h5, fun ha => h6 ha hp⟩

/-! ### Concrete cases -/

/-- A call whose pushes answer `r`. -/
def call (msg : List Byte) (small : msg.length < 2 ^ 31) (r : Nat → Code) : Call :=
  ⟨msg, fun n => some (List.replicate n 0), r, true, small, fun n b h => by
    obtain rfl := Option.some.inj h; exact List.length_replicate⟩

def a2 : Call := call [65, 65] (by decide) fun _ => .success
def b4 : Call := call [66, 66, 66, 66] (by decide) fun _ => .success
def big : Call := call (List.replicate 3000 67) (by rw [List.length_replicate]; omega) fun i => if i = 0 then .bufNotEnough else .success

/-- Three threads: the second enlarges the cache and needs two pushes. -/
def demo : List (Nat × Option Call) :=
  [(0, some a2), (1, some big), (2, some b4)] ++ List.replicate 30 (1, none) ++ List.replicate 20 (2, none) ++
    List.replicate 20 (0, none) ++ List.replicate 20 (2, none)

def start3 : Sys Sh Call Code := ⟨Sh.init, List.replicate 3 .idle, none, []⟩

example : Reach (body true) Sh.init 3 (play (body true) start3 demo) := play_reach _ .start

/-- Who was accepted with which length and first byte. -/
def view (ps : List (Mem × Code)) : List (List Byte × Bool) := ps.map fun p => ((p.1.drop 12).take 6, decide (p.2 = .success))

example : view (play (body true) start3 demo).st.pushed =
    [([184, 11, 0, 0, 67, 67], false), ([184, 11, 0, 0, 67, 67], true), ([4, 0, 0, 0, 66, 66], true), ([2, 0, 0, 0, 65, 65], true)] ∧
    ((play (body true) start3 demo).ths.all fun | .idle => true | _ => false) = true := by
  decide +kernel

/-- `k` pieces of the first call, then the whole second call, then the rest of the first. -/
def amid (k : Nat) : List Bool := List.replicate k true ++ List.replicate 30 false ++ List.replicate 20 true

/-- The lock is needed: with no lock (`cfg.lock` empty) and two threads, one logging "AA" and one "BBBB", there is an interleaving
in which both calls answer success and the queue gets "BBBB" and "BB" - the message "AA" is gone and another one is torn;
and if the other message is larger than the cache, one in which the first call writes to freed memory. -/
theorem lock_needed :
    (ended (unlocked (body false a2) (body false b4) (amid 3) Sh.init)).map (fun t => (view t.1.pushed, t.2)) =
      some ([([4, 0, 0, 0, 66, 66], true), ([2, 0, 0, 0, 66, 66], true)], (.success, .success)) ∧
    (unlocked (body true a2) (body true big) (amid 2) Sh.init).isNone = true := by
  refine ⟨?_, ?_⟩ <;> decide +kernel

/-- A fair execution in which, at some time, all three threads are in a call (so `every_call_returns` applies to each). -/
example : ∃ x : Fair.Exec (LStep (body true)), Reach (body true) Sh.init 3 (x.st 0) ∧ FairRun x ∧
    ∃ k, busy (x.st k).ths[0]? = true ∧ busy (x.st k).ths[1]? = true ∧ busy (x.st k).ths[2]? = true := by
  obtain ⟨x, h0, hf, k, hk⟩ := play_fair (body := body true) (s := start3) (demo.take 10) (demo.drop 10) (by
    rw [List.take_append_drop]; decide +kernel)
  refine ⟨x, by rw [h0]; exact .start, hf, k, ?_⟩
  rw [hk]
  decide +kernel

/-- Two threads with a queue of 32 bytes: the first message is accepted, the second does not fit. -/
def one : Call := call [9] (by decide) fun _ => .success
def wide : Call := call (List.replicate 40 7) (by decide) fun _ => .full
def start2 : Sys Sh Call Code := ⟨Sh.init, List.replicate 2 .idle, none, []⟩
def two : List (Nat × Option Call) := [(1, some wide), (0, some one)] ++ List.replicate 20 (0, none) ++ List.replicate 20 (1, none)

def oneMsg : MsgHandler.Msg := ⟨List.replicate 12 0 ++ [1, 0, 0, 0, 9] ++ List.replicate 2047 0, by decide +kernel, by decide +kernel⟩
def wideMsg : MsgHandler.Msg := ⟨List.replicate 12 0 ++ [40, 0, 0, 0] ++ List.replicate 40 7 ++ List.replicate 2008 0, by decide +kernel, by decide +kernel⟩

def queueRun : List MsgHandler.Act :=
  [.call oneMsg, .w 0, .w 0, .w 0, .w 1, .w 2, .w 3, .w 4, .w 0] ++ (List.range 18).map .w ++ [.pret, .post] ++
    [.boot] ++ MsgHandler.demoPop ++ [.cb] ++ [.call wideMsg, .w 0]

/-- The hypotheses of `threads_to_files` are met by two threads and a queue that has made their pushes and whose worker sleeps. -/
example : ∃ (x : Sys Sh Call Code) (s : MsgHandler.Sys), Reach (body false) Sh.init 2 x ∧ x.lock = none ∧ MsgHandler.Reach s ∧
    s.prod = .idle ∧ s.results.map (fun r => (r.1.obj, r.2)) = x.st.pushed ∧ MsgHandler.Spec.Asleep s ∧
    x.st.pushed.map (·.2) = [.success, .full] := by
  have h : (MsgHandler.execs MsgHandler.demoInit queueRun).map (fun s => (decide (s.sem = 0 ∧ s.wrk = .top .success),
      decide (s.results.map (fun r => (r.1.obj, r.2)) = [(oneMsg.obj, .success)]),
      (match s.prod with | .pushing m => decide (m.obj = wideMsg.obj) | _ => false),
      match s.conf.w with | .run _ (.ret c) => decide (c = Code.full) | _ => false)) = some (true, true, true, true) := by decide +kernel
  obtain ⟨s, hs, he⟩ := Option.map_eq_some_iff.1 h
  simp only [_root_.Prod.mk.injEq, decide_eq_true_eq] at he
  obtain ⟨⟨h1, h2⟩, h3, h4, h5⟩ := he
  have hp : (play (body false) start2 two).st.pushed = [(oneMsg.obj, .success), (wideMsg.obj, .full)] ∧
    (play (body false) start2 two).lock = none := by decide +kernel
  split at h4
  · rename_i m hm
    split at h5
    · rename_i c a hw
      obtain rfl := of_decide_eq_true h5
      have h6 : m.obj = wideMsg.obj := of_decide_eq_true h4
      obtain ⟨i, hi, hst⟩ := MsgHandler.execs_reach MsgHandler.demoInit_reach hs
      refine ⟨_, _, play_reach (x := start2) two .start, hp.2, ⟨i, hi, hst.step trivial (.push_fail hm hw (by decide))⟩, rfl, ?_,
        ⟨.inl h2, h1⟩, ?_⟩
      · rw [hp.1]
        simp only [List.map_append, h3, List.map_cons, List.map_nil, h6, List.cons_append, List.nil_append]
      · rw [hp.1]
        rfl
    · simp at h5
  · simp at h4

end Verif.FileLoggerMt
