import Verif.IniHeap.Sim
import Verif.IniReader.Props
/-!
# Creating a parser
-/
namespace Verif.IniHeap
open Verif.IniParser (ciEq Code KV Sec Parser findKey Allocs)

/-- Only finitely many cells are in use. -/
def Finite (h : Addr → Option Obj) : Prop := ∃ b : Nat, ∀ a : Nat, b ≤ a → h a = none

/-- The allocator refuses nothing (while there are free cells). -/
def Grants (pick : Policy) : Prop := ∀ h n, Finite h → pick h n ≠ none

theorem own_finite {h base : Addr → Option Obj} (hb : Finite base) {xs : List (Addr × Obj)} (o : Own h base xs) : Finite h := by
  obtain ⟨b, hb⟩ := hb
  have key : ∀ (l : List Nat), ∃ c : Nat, ∀ a ∈ l, a < c := by
    intro l
    induction l with
    | nil => exact ⟨0, by simp⟩
    | cons x l ih =>
      obtain ⟨c, hc⟩ := ih
      refine ⟨c + x + 1, fun a ha => ?_⟩
      rcases List.mem_cons.mp ha with rfl | ha
      · omega
      · have := hc a ha
        omega
  obtain ⟨c, hc⟩ := key (xs.map (·.1))
  refine ⟨b + c, fun a ha => ?_⟩
  rw [o.rest a fun hm => ?_]
  · exact hb a (by omega)
  · have := hc a hm
    omega

theorem noFail_of {pick : Policy} (hg : Grants pick) {base : Addr → Option Obj} (hb : Finite base) : NoFail pick base :=
  fun h n _ o => hg h n (own_finite hb o)

/-- The heap holds a parser at `p`. -/
structure Good (m : Mem) (base : Addr → Option Obj) (d : DocD) (P : Parser) : Prop where
  own : OwnM m base d.objs
  sim : Sim d P

theorem good_new {pick : Policy} (hp : Sound pick) {m m' : Mem} {p : Addr} (h : create pick m = some (m', some p)) :
    ∃ d, d.p = p ∧ Good m' m.heap d IniParser.create ∧ d.leaked = [] := by
  rcases create_own hp (m := m) (Own.start _) with ⟨m1, e1, _⟩ | ⟨m1, q, r, e1, o1⟩
  · rw [h] at e1
    simp at e1
  · rw [h] at e1
    simp only [Option.some.injEq, Prod.mk.injEq] at e1
    obtain ⟨rfl, rfl⟩ := e1
    exact ⟨_, rfl, ⟨o1, ⟨rfl, rfl, List.Pairwise.nil, by simp, Or.inl ⟨rfl, rfl⟩⟩⟩, rfl⟩


/-! ### Two handlers -/

open IniReader (Handler)

/-- While the first reader has no error, the second has none and is in the same state, with related users. -/
structure Both {σ τ : Type} (R : σ → τ → Prop) (Q : σ → Prop) (x : IniReader.Spec.St σ) (y : IniReader.Spec.St τ) : Prop where
  inv : Q x.user
  same : x.error = 0 → y.error = 0 ∧ x.sec = y.sec ∧ x.prev = y.prev ∧ x.lineno = y.lineno ∧ R x.user y.user

theorem fail_error {σ : Type} (x : IniReader.Spec.St σ) (h : x.lineno ≠ 0) : x.fail.error ≠ 0 := by
  unfold IniReader.Spec.St.fail
  simp only
  by_cases h0 : x.error = 0
  · rw [if_pos h0]; exact h
  · rw [if_neg h0]; exact h0

theorem report_both {σ τ : Type} {R : σ → τ → Prop} {Q : σ → Prop} {h1 : Handler σ} {h2 : Handler τ}
    (hq : ∀ u s n v, Q u → Q (h1 u s n v).1)
    (hh : ∀ u u' s n v, Q u → R u u' → (h1 u s n v).2 = true → (h2 u' s n v).2 = true ∧ R (h1 u s n v).1 (h2 u' s n v).1)
    {x : IniReader.Spec.St σ} {y : IniReader.Spec.St τ} (b : Both R Q x y) (hl : x.lineno ≠ 0) (n n' : List Byte)
    (v : Option (List Byte)) (hn : x.error = 0 → n = n') : Both R Q (x.report h1 n v) (y.report h2 n' v) := by
  unfold IniReader.Spec.St.report
  simp only
  by_cases hr : (h1 x.user x.sec n v).2 = true
  · rw [if_pos hr]
    refine ⟨hq _ _ _ _ b.inv, fun h0 => ?_⟩
    obtain ⟨e1, e2, e3, e4, r⟩ := b.same h0
    obtain ⟨f1, f2⟩ := hh _ _ x.sec n v b.inv r hr
    rw [hn h0, e2] at f1 f2
    rw [if_pos f1]
    refine ⟨e1, e2, e3, e4, ?_⟩
    simp only
    rw [hn h0, e2]; exact f2
  · rw [if_neg hr]
    exact ⟨hq _ _ _ _ b.inv, fun h0 => absurd h0 (fail_error _ hl)⟩

theorem step_both {σ τ : Type} {R : σ → τ → Prop} {Q : σ → Prop} {h1 : Handler σ} {h2 : Handler τ}
    (hq : ∀ u s n v, Q u → Q (h1 u s n v).1)
    (hh : ∀ u u' s n v, Q u → R u u' → (h1 u s n v).2 = true → (h2 u' s n v).2 = true ∧ R (h1 u s n v).1 (h2 u' s n v).1)
    {x : IniReader.Spec.St σ} {y : IniReader.Spec.St τ} (b : Both R Q x y) (line : List Byte) :
    Both R Q (IniReader.Spec.step h1 x line) (IniReader.Spec.step h2 y line) := by
  by_cases h0 : x.error = 0
  · obtain ⟨e1, e2, e3, e4, r⟩ := b.same h0
    unfold IniReader.Spec.step
    simp only
    rw [← e3, ← e4]
    have b' : Both R Q { x with lineno := x.lineno + 1 } { y with lineno := x.lineno + 1, prev := x.prev } :=
      ⟨b.inv, fun _ => ⟨e1, e2, rfl, rfl, r⟩⟩
    generalize IniReader.Spec.classify (decide (x.lineno + 1 = 1)) (decide (x.prev ≠ [])) line = L
    cases L with
    | ignored => exact b'
    | «section» name => exact ⟨b.inv, fun _ => ⟨e1, rfl, rfl, rfl, r⟩⟩
    | broken => exact ⟨b.inv, fun h => absurd h (fail_error _ (Nat.succ_ne_zero _))⟩
    | pair name value =>
      have b2 : Both R Q { x with lineno := x.lineno + 1, prev := name.take 49 }
          { y with lineno := x.lineno + 1, prev := name.take 49 } := ⟨b.inv, fun _ => ⟨e1, e2, rfl, rfl, r⟩⟩
      exact report_both hq hh b2 (Nat.succ_ne_zero _) _ _ _ fun _ => rfl
    | bare name =>
      simp only
      rw [if_pos h0, if_pos e1]
      exact report_both hq hh b' (Nat.succ_ne_zero _) _ _ _ fun _ => rfl
    | more value => exact report_both hq hh b' (Nat.succ_ne_zero _) _ _ _ fun _ => rfl
  · have hr : ∀ (z : IniReader.Spec.St σ) n v, Q z.user → z.error ≠ 0 →
        Q (z.report h1 n v).user ∧ (z.report h1 n v).error ≠ 0 := by
      intro z n v hz he
      unfold IniReader.Spec.St.report
      simp only
      by_cases hr : (h1 z.user z.sec n v).2 = true
      · rw [if_pos hr]; exact ⟨hq _ _ _ _ hz, he⟩
      · rw [if_neg hr]
        refine ⟨hq _ _ _ _ hz, ?_⟩
        unfold IniReader.Spec.St.fail
        simp only
        rw [if_neg he]; exact he
    have : Q (IniReader.Spec.step h1 x line).user ∧ (IniReader.Spec.step h1 x line).error ≠ 0 := by
      unfold IniReader.Spec.step
      simp only
      split
      · exact ⟨b.inv, h0⟩
      · exact ⟨b.inv, h0⟩
      · exact ⟨b.inv, fail_error _ (Nat.succ_ne_zero _)⟩
      · exact hr _ _ _ b.inv h0
      · rw [if_neg h0]; exact ⟨b.inv, h0⟩
      · exact hr _ _ _ b.inv h0
    exact ⟨this.1, fun h => absurd h this.2⟩

theorem run_both {σ τ : Type} {R : σ → τ → Prop} {Q : σ → Prop} {h1 : Handler σ} {h2 : Handler τ}
    (hq : ∀ u s n v, Q u → Q (h1 u s n v).1)
    (hh : ∀ u u' s n v, Q u → R u u' → (h1 u s n v).2 = true → (h2 u' s n v).2 = true ∧ R (h1 u s n v).1 (h2 u' s n v).1)
    (text : List Byte) {u : σ} {u' : τ} (hu : Q u) (hr : R u u') :
    Q (IniReader.Spec.run h1 text u).2 ∧ ((IniReader.Spec.run h1 text u).1 = 0 → (IniReader.Spec.run h2 text u').1 = 0 ∧
      R (IniReader.Spec.run h1 text u).2 (IniReader.Spec.run h2 text u').2) := by
  unfold IniReader.Spec.run
  simp only
  have key : ∀ (ls : List (List Byte)) (x : IniReader.Spec.St σ) (y : IniReader.Spec.St τ), Both R Q x y →
      Both R Q (ls.foldl (IniReader.Spec.step h1) x) (ls.foldl (IniReader.Spec.step h2) y) := by
    intro ls
    induction ls with
    | nil => intro x y b; exact b
    | cons l ls ih => intro x y b; exact ih _ _ (step_both hq hh b l)
  have := key (IniReader.Spec.lines text) ⟨[], [], 0, 0, u⟩ ⟨[], [], 0, 0, u'⟩ ⟨hu, fun _ => ⟨rfl, rfl, rfl, rfl, hr⟩⟩
  exact ⟨this.inv, fun h => ⟨(this.same h).1, (this.same h).2.2.2.2⟩⟩

/-! ### `ini_parser_parse_str` -/

/-- The memory of the heap reader: a parser. -/
def Holds (base : Addr → Option Obj) (p : Addr) (u : Option Mem) : Prop :=
  ∃ m d P, u = some m ∧ d.p = p ∧ Good m base d P

/-- Heap reader and list reader: the same document, nothing leaked. -/
def Alike (base : Addr → Option Obj) (p : Addr) (u : Option Mem) (v : Option Parser) : Prop :=
  ∃ m d P, u = some m ∧ v = some P ∧ d.p = p ∧ Good m base d P ∧ d.leaked = []

theorem cb_holds {pick : Policy} (hp : Sound pick) {base : Addr → Option Obj} {p : Addr} (u : Option Mem) (s n : List Byte)
    (v : Option (List Byte)) (h : Holds base p u) : Holds base p (handlerCb pick p u s n v).1 := by
  obtain ⟨m, d, P, rfl, rfl, g⟩ := h
  obtain ⟨m', c, d', P', a, e, o, ep, hs, -⟩ := put_sim hp g.own g.sim s (some n) v
  unfold handlerCb
  simp only
  rw [e]
  exact ⟨m', d', P', rfl, ep, ⟨o, hs⟩⟩

theorem cb_alike {pick : Policy} (hp : Sound pick) {base : Addr → Option Obj} {p : Addr} (u : Option Mem) (w : Option Parser)
    (s n : List Byte) (v : Option (List Byte)) (h : Alike base p u w) (ht : (handlerCb pick p u s n v).2 = true) :
    (IniParser.handlerCb w s n v).2 = true ∧ Alike base p (handlerCb pick p u s n v).1 (IniParser.handlerCb w s n v).1 := by
  obtain ⟨m, d, P, rfl, rfl, rfl, g, hl⟩ := h
  obtain ⟨m', c, d', P', a, e, o, ep, hs, epure, -, hlk⟩ := put_sim hp g.own g.sim s (some n) v
  unfold handlerCb at ht ⊢
  simp only at ht ⊢
  rw [e] at ht ⊢
  simp only [decide_eq_true_eq] at ht ⊢
  subst ht
  have epure := IniParser.put_succeed_ok epure
  unfold IniParser.handlerCb
  simp only
  rw [epure]
  refine ⟨by simp, m', d', P', rfl, rfl, ep, ⟨o, hs⟩, ?_⟩
  rcases hlk with hlk | ⟨hc, _⟩
  · rw [hlk]; exact hl
  · cases hc

theorem cb_noFail {pick : Policy} (hp : Sound pick) {base : Addr → Option Obj} (hn : NoFail pick base) {p : Addr}
    (u : Option Mem) (w : Option Parser) (s n : List Byte) (v : Option (List Byte)) (h : Alike base p u w) :
    (handlerCb pick p u s n v).2 = (IniParser.handlerCb w s n v).2 ∧
      Alike base p (handlerCb pick p u s n v).1 (IniParser.handlerCb w s n v).1 := by
  obtain ⟨m, d, P, rfl, rfl, rfl, g, hl⟩ := h
  obtain ⟨m', c, d', P', a, e, o, ep, hs, epure, hnf, -⟩ := put_sim hp g.own g.sim s (some n) v
  obtain ⟨rfl, hlk⟩ := hnf hn
  unfold IniParser.handlerCb handlerCb
  simp only
  rw [epure, e]
  exact ⟨rfl, m', d', P', rfl, rfl, ep, ⟨o, hs⟩, hlk.trans hl⟩

/-- The leaked lists of a parser, as seen after it is gone. -/
def Litter (base h : Addr → Option Obj) : Prop := ∀ a, h a = base a ∨ base a = none ∧ h a = some (.list [])

theorem litter_of {base h : Addr → Option Obj} {lk : List Addr} (o : Own h base (lk.map fun a => (a, Obj.list []))) :
    Litter base h := by
  intro a
  by_cases ha : a ∈ lk
  · have hm : (a, Obj.list []) ∈ lk.map fun a => (a, Obj.list []) := List.mem_map.mpr ⟨a, ha, rfl⟩
    exact Or.inr ⟨o.fresh _ hm, o.at hm⟩
  · refine Or.inl (o.rest a fun hm => ha ?_)
    obtain ⟨x, hx, rfl⟩ := List.mem_map.mp hm
    obtain ⟨y, hy, rfl⟩ := List.mem_map.mp hx
    exact hy

/-- The parser a call of `ini_parser_parse_str` must return without shortage of memory (`none`: NULL). -/
def wanted (src : Option (List Byte)) (garbage : List Byte) : Option (Option Parser) :=
  match src with
  | none => some (some IniParser.create)
  | some t => IniParser.parseStr t garbage

/-- A C string, or NULL. -/
def Text (src : Option (List Byte)) : Prop := ∀ t, src = some t → (0 : Byte) ∈ t

theorem parse_own {pick : Policy} (hp : Sound pick) (m : Mem) {src : Option (List Byte)} (ht : Text src) {garbage : List Byte}
    (hgb : garbage.length = 200) :
    ∃ m' r, parseStr pick m src garbage = some (m', r) ∧ (r = none → Litter m.heap m'.heap) ∧
      (∀ p, r = some p → ∃ d P, d.p = p ∧ Good m' m.heap d P ∧ d.leaked = [] ∧ wanted src garbage = some (some P)) ∧
      (NoFail pick m.heap → r = none → wanted src garbage = some none ∧ m'.heap = m.heap) := by
  unfold parseStr
  rcases create_own hp (m := m) (Own.start _) with ⟨m1, e1, o1, hn⟩ | ⟨m1, p, rt, e1, o1⟩
  · rw [e1, Option.bind_some]
    exact ⟨m1, none, rfl, fun _ a => Or.inl (o1.rest a (by simp)), nofun, fun h => absurd h hn⟩
  rw [e1, Option.bind_some]
  obtain ⟨d, rfl, g, hl⟩ := good_new hp e1
  cases src with
  | none =>
    refine ⟨m1, some d.p, rfl, nofun, ?_, fun _ h => by cases h⟩
    intro p hp'
    injection hp' with hp'
    exact ⟨d, _, hp', g, hl, rfl⟩
  | some t =>
    simp only
    obtain ⟨text, after, ht0, rfl⟩ : ∃ text after, (0 : Byte) ∉ text ∧ t = text ++ 0 :: after := by
      have hm := ht t rfl
      clear ht
      induction t with
      | nil => simp at hm
      | cons x t ih =>
        by_cases hx : x = 0
        · exact ⟨[], t, by simp, by simp [hx]⟩
        · rcases List.mem_cons.mp hm with h | h
          · exact absurd h.symm hx
          · obtain ⟨a, b, h1, h2⟩ := ih h
            exact ⟨x :: a, b, by
              intro h'
              rcases List.mem_cons.mp h' with h' | h'
              · exact hx h'.symm
              · exact h1 h', by rw [h2]; rfl⟩
    have hA : Alike m.heap d.p (some m1) (some IniParser.create) := ⟨m1, d, _, rfl, rfl, rfl, g, hl⟩
    have hH : Holds m.heap d.p (some m1) := ⟨m1, d, _, rfl, rfl, g⟩
    obtain ⟨r1, r2⟩ := run_both (R := Alike m.heap d.p) (Q := Holds m.heap d.p) (h1 := handlerCb pick d.p) (h2 := IniParser.handlerCb)
      (fun u s n v h => cb_holds hp u s n v h) (fun u u' s n v _ h ht => cb_alike hp u u' s n v h ht) text hH hA
    rw [IniReader.parseString_spec _ text after garbage _ ht0 hgb]
    have hw : wanted (some (text ++ 0 :: after)) garbage = IniParser.parseStr (text ++ 0 :: after) garbage := rfl
    rw [hw]
    unfold IniParser.parseStr
    rw [IniReader.parseString_spec _ text after garbage _ ht0 hgb]
    generalize hrun : IniReader.Spec.run (handlerCb pick d.p) text (some m1) = R1 at r1 r2
    generalize hrun2 : IniReader.Spec.run IniParser.handlerCb text (some IniParser.create) = R2 at r2
    obtain ⟨x1, u1⟩ := R1
    obtain ⟨x2, u2⟩ := R2
    simp only at r1 r2 ⊢
    obtain ⟨m2, d2, P2, rfl, ep2, g2⟩ := r1
    simp only
    by_cases hx : x1 = 0
    · obtain ⟨f1, m3, d3, P3, f2, f3, f4, f5, f6⟩ := r2 hx
      injection f2 with f2
      subst f2 f3 f1 hx
      rw [if_neg (by simp)]
      refine ⟨m2, some d.p, rfl, nofun, ?_, fun _ h => by cases h⟩
      intro p hp'
      injection hp' with hp'
      exact ⟨d3, P3, f4.trans hp', f5, f6, by simp⟩
    · rw [if_pos hx]
      obtain ⟨m3, e3, o3⟩ := destroy_own g2.own
      rw [ep2] at e3
      rw [e3]
      refine ⟨m3, none, rfl, fun _ => litter_of o3, nofun, fun hnf _ => ?_⟩
      have hpair := run_both (R := fun (a : Option Mem) (b : Option Parser) => Alike m.heap d.p a b)
        (Q := fun a => ∃ b, Alike m.heap d.p a b) (h1 := handlerCb pick d.p) (h2 := IniParser.handlerCb)
        (fun u s n v ⟨w, h⟩ => ⟨_, (cb_noFail hp hnf u w s n v h).2⟩)
        (fun u u' s n v _ h ht => by
          have := cb_noFail hp hnf u u' s n v h
          exact ⟨this.1.symm.trans ht, this.2⟩) text ⟨_, hA⟩ hA
      have hback := run_both (R := fun (a : Option Parser) (b : Option Mem) => Alike m.heap d.p b a)
        (Q := fun a => ∃ b, Alike m.heap d.p b a) (h1 := IniParser.handlerCb) (h2 := handlerCb pick d.p)
        (fun u s n v ⟨w, h⟩ => ⟨_, (cb_noFail hp hnf w u s n v h).2⟩)
        (fun u u' s n v _ h ht => by
          have := cb_noFail hp hnf u' u s n v h
          exact ⟨this.1.trans ht, this.2⟩) text ⟨_, hA⟩ hA
      rw [hrun, hrun2] at hback
      rw [hrun] at hpair
      obtain ⟨⟨b, m4, d4, P4, k1, k2, k3, k4, k5⟩, hz⟩ := hback
      simp only at k2 hz
      obtain ⟨⟨b', m5, d5, P5, l1, l2, l3, l4, l5⟩, -⟩ := hpair
      simp only [Option.some.injEq] at l1
      subst l1 k2
      have hx2 : x2 ≠ 0 := fun hx2 => hx (hz hx2).1
      obtain ⟨m6, e6, o6⟩ := destroy_own l4.own
      rw [l3, e3, Option.some.injEq] at e6
      subst e6
      rw [l5] at o6
      refine ⟨?_, funext fun a => o6.rest a (by simp)⟩
      simp only
      rw [if_pos hx2]

end Verif.IniHeap
