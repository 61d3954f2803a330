import Verif.IniHeap.Parse
/-!
# C97: ini_parser.c on the heap

Calls on one parser, with an allocator that may refuse any request.  Nothing freed is touched, nothing is freed twice,
`ini_parser_destroy` gives back all blocks but the lists of sections whose node could not be allocated.
-/
namespace Verif.IniHeap
open Verif.IniParser (ciEq Code KV Sec Parser findKey Allocs)
open Verif.IniParser.Spec (norm Op Ok Doc)

/-- The calls of the API on a parser. -/
inductive Call where
  | put (s : List Byte) (key value : Option (List Byte))
  | get (s key : List Byte)
  | delKey (s key : List Byte)
  | delSec (s : List Byte)

/-- What they answer. -/
inductive Ans where
  | code (c : Code)
  | value (v : Option (List Byte))
deriving DecidableEq

/-- One call. -/
def call (pick : Policy) (m : Mem) (p : Addr) : Call → Option (Mem × Ans)
  | .put s key value => (putString pick m p s key value).map fun r => (r.1, .code r.2)
  | .get s key => (lookup m p s key).map fun r => (m, .value r)
  | .delKey s key => (deleteKey m p s key).map fun r => (r.1, .code r.2)
  | .delSec s => (deleteSection m p s).map fun r => (r.1, .code r.2)

/-- Many calls; `none`: undefined behaviour. -/
def calls (pick : Policy) : Mem → Addr → List Call → Option (Mem × List Ans)
  | m, _, [] => some (m, [])
  | m, p, c :: cs => (call pick m p c).bind fun r => (calls pick r.1 p cs).map fun q => (q.1, r.2 :: q.2)

/-- The call does not delete the section the parser created last. -/
def KeepsLast (m : Mem) (p : Addr) : Call → Prop
  | .delSec s => ∀ x r n, search m p s = some (some x) → getParser m p ≠ some (r, x, n)
  | _ => True

/-- No call deletes the section created last. -/
def AllKeep (pick : Policy) : Mem → Addr → List Call → Prop
  | _, _, [] => True
  | m, p, c :: cs => KeepsLast m p c ∧ ∀ m' a, call pick m p c = some (m', a) → AllKeep pick m' p cs

theorem call_good {pick : Policy} (hp : Sound pick) {m : Mem} {base : Addr → Option Obj} {d : DocD} {P : Parser}
    (g : Good m base d P) (c : Call) (hk : KeepsLast m d.p c) :
    ∃ m' a d' P', call pick m d.p c = some (m', a) ∧ Good m' base d' P' ∧ d'.p = d.p ∧
      (NoFail pick base → d'.leaked = d.leaked) ∧
      (d'.leaked = d.leaked ∨ a = .code .noMemory ∧ ∃ l, d'.leaked = l :: d.leaked) := by
  cases c with
  | put s key value =>
    obtain ⟨m', c, d', P', a, e, o, ep, hs, -, hn, hl⟩ := put_sim hp g.own g.sim s key value
    refine ⟨m', .code c, d', P', by simp only [call, e, Option.map_some], ⟨o, hs⟩, ep, fun h => (hn h).2, ?_⟩
    rcases hl with hl | ⟨rfl, hl⟩
    · exact Or.inl hl
    · exact Or.inr ⟨rfl, hl⟩
  | get s key =>
    have : ∃ v, lookup m d.p s key = some v := by
      by_cases hs : s = []
      · subst hs
        exact ⟨none, by unfold lookup; rw [search_nil_heap]; rfl⟩
      · exact ⟨_, lookup_own g.own g.sim.lastOk hs key⟩
    obtain ⟨v, e⟩ := this
    exact ⟨m, .value v, d, P, by simp only [call, e, Option.map_some], g, rfl, fun _ => rfl, Or.inl rfl⟩
  | delKey s key =>
    obtain ⟨m', c, d', P', e, o, ep, hs, -, hl⟩ := delKey_sim g.own g.sim s key
    exact ⟨m', .code c, d', P', by simp only [call, e, Option.map_some], ⟨o, hs⟩, ep, fun _ => hl, Or.inl hl⟩
  | delSec s =>
    obtain ⟨m', c, d', P', e, o, ep, hs, -, hl⟩ := delSec_sim g.own g.sim s (by
      intro hne t ht e
      refine hk t.sec d.root d.pred ?_ ?_
      · rw [search_own g.own g.sim.lastOk hne, ht]; rfl
      · rw [getParser_own g.own (mem_parser d), e])
    exact ⟨m', .code c, d', P', by simp only [call, e, Option.map_some], ⟨o, hs⟩, ep, fun _ => hl, Or.inl hl⟩

/-- How often memory was short. -/
def shortages (as : List Ans) : Nat := as.countP (· == .code .noMemory)

theorem calls_good {pick : Policy} (hp : Sound pick) {base : Addr → Option Obj} : ∀ (cs : List Call) {m : Mem} {d : DocD}
    {P : Parser}, Good m base d P → AllKeep pick m d.p cs →
    ∃ m' as d' P', calls pick m d.p cs = some (m', as) ∧ Good m' base d' P' ∧ d'.p = d.p ∧
      (NoFail pick base → d'.leaked = d.leaked) ∧ d'.leaked.length ≤ d.leaked.length + shortages as
  | [], m, d, P, g, _ => ⟨m, [], d, P, rfl, g, rfl, fun _ => rfl, Nat.le_add_right ..⟩
  | c :: cs, m, d, P, g, hk => by
    obtain ⟨m1, a, d1, P1, e1, g1, ep, hn, hl⟩ := call_good hp g c hk.1
    have hk2 := hk.2 m1 a e1
    rw [← ep] at hk2
    obtain ⟨m2, as, d2, P2, e2, g2, ep2, hn2, hl2⟩ := calls_good hp cs g1 hk2
    rw [ep] at e2
    refine ⟨m2, a :: as, d2, P2, ?_, g2, ep2.trans ep, fun h => (hn2 h).trans (hn h), ?_⟩
    · unfold calls
      rw [e1, Option.bind_some, e2]; rfl
    · unfold shortages at *
      rw [List.countP_cons]
      rcases hl with hl | ⟨rfl, l, hl⟩
      · rw [hl] at hl2
        omega
      · rw [hl, List.length_cons] at hl2
        simp only [BEq.rfl, if_true]
        omega

theorem made_good {pick : Policy} (hp : Sound pick) {m m1 : Mem} {p : Addr} {src : Option (List Byte)} (ht : Text src)
    {garbage : List Byte} (hg : garbage.length = 200) (h : parseStr pick m src garbage = some (m1, some p)) :
    ∃ d P, d.p = p ∧ Good m1 m.heap d P ∧ d.leaked = [] ∧ wanted src garbage = some (some P) := by
  obtain ⟨m', r, e, -, h2, -⟩ := parse_own hp m ht hg
  rw [h] at e
  simp only [Option.some.injEq, Prod.mk.injEq] at e
  obtain ⟨rfl, rfl⟩ := e
  exact h2 p rfl

/-- A document as a list of sections with their entries. -/
def docText (P : Parser) : List (List Byte × List (List Byte × List Byte)) :=
  P.secs.map fun t => (t.name, t.kvs.map fun k => (k.key, k.value))

theorem readAll_good {m : Mem} {base : Addr → Option Obj} {d : DocD} {P : Parser} (g : Good m base d P) :
    readAll m d.p = some (docText P) := by
  rw [readAll_own g.own]
  unfold docText
  rw [g.sim.secs, List.map_map]
  congr 1
  apply List.map_congr_left
  intro t _
  simp only [Function.comp, SecD.abs, List.map_map]
  rfl

/-- **C97**: `ini_parser_parse_str` and `ini_parser_create`, whatever text they get and whatever the allocator refuses: no
undefined behaviour; NULL leaves nothing behind but empty lists; a parser that is returned holds the complete document,
as if nothing had been refused (never a part of it).  With memory available NULL is returned only if the text asks for
it, and then nothing is left behind. -/
theorem parse_complete {pick : Policy} (hp : Sound pick) (m : Mem) (src : Option (List Byte)) (ht : Text src)
    (garbage : List Byte) (hg : garbage.length = 200) :
    ∃ m' r, parseStr pick m src garbage = some (m', r) ∧
      (r = none → ∀ a, m'.heap a = m.heap a ∨ m.heap a = none ∧ m'.heap a = some (.list [])) ∧
      (∀ p, r = some p → ∃ P, wanted src garbage = some (some P) ∧ readAll m' p = some (docText P)) ∧
      (Grants pick → Finite m.heap → r = none → wanted src garbage = some none ∧ m'.heap = m.heap) := by
  obtain ⟨m', r, e, h1, h2, h3⟩ := parse_own hp m ht hg
  refine ⟨m', r, e, h1, ?_, fun hg hf => h3 (noFail_of hg hf)⟩
  intro p hr
  obtain ⟨d, P, rfl, g, -, hw⟩ := h2 p hr
  exact ⟨P, hw, readAll_good g⟩

/-- **C97**: whatever the allocator refuses, a parser survives every sequence of calls that never deletes the section
created last: no call touches a block that is not allocated, no block that existed before is changed; and
`ini_parser_destroy` then gives everything back except some empty lists, at most one for every call that ran out
of memory. -/
theorem never_faults {pick : Policy} (hp : Sound pick) {m m1 : Mem} {p : Addr} {src : Option (List Byte)} (ht : Text src)
    {garbage : List Byte} (hgb : garbage.length = 200) (h : parseStr pick m src garbage = some (m1, some p))
    (cs : List Call) (hk : AllKeep pick m1 p cs) :
    ∃ (m2 : Mem) (as : List Ans) (m3 : Mem) (lost : List Addr), calls pick m1 p cs = some (m2, as) ∧ destroy m2 p = some m3 ∧
      (∀ a, m.heap a ≠ none → m2.heap a = m.heap a) ∧
      lost.length ≤ shortages as ∧
      (∀ a, a ∉ lost → m3.heap a = m.heap a) ∧ (∀ a ∈ lost, m.heap a = none ∧ m3.heap a = some (.list [])) := by
  obtain ⟨d, P, rfl, g, hl, -⟩ := made_good hp ht hgb h
  obtain ⟨m2, as, d2, P2, e2, g2, ep, hn, hle⟩ := calls_good hp cs g hk
  obtain ⟨m3, e3, o3⟩ := destroy_own g2.own
  refine ⟨m2, as, m3, d2.leaked, e2, by rw [← ep]; exact e3, ?_, ?_, ?_, ?_⟩
  · intro a ha
    refine g2.own.rest a fun hm => ha ?_
    obtain ⟨x, hx, rfl⟩ := List.mem_map.mp hm
    exact g2.own.fresh x hx
  · rw [hl] at hle
    simpa using hle
  · intro a ha
    refine o3.rest a fun hm => ha ?_
    obtain ⟨x, hx, rfl⟩ := List.mem_map.mp hm
    obtain ⟨y, hy, rfl⟩ := List.mem_map.mp hx
    exact hy
  · intro a ha
    have hm : (a, Obj.list []) ∈ d2.leaked.map fun a => (a, Obj.list []) := List.mem_map.mpr ⟨a, ha, rfl⟩
    exact ⟨o3.fresh _ hm, o3.at hm⟩

/-- **C97**: when no request is refused, `ini_parser_destroy` leaves the heap exactly as it was before
the parser was created. -/
theorem no_leak {pick : Policy} (hp : Sound pick) (hg : Grants pick) {m m1 : Mem} (hf : Finite m.heap) {p : Addr}
    {src : Option (List Byte)} (ht : Text src) {garbage : List Byte} (hgb : garbage.length = 200)
    (h : parseStr pick m src garbage = some (m1, some p)) (cs : List Call) (hk : AllKeep pick m1 p cs) :
    ∃ m2 as m3, calls pick m1 p cs = some (m2, as) ∧ destroy m2 p = some m3 ∧ m3.heap = m.heap := by
  obtain ⟨d, P, rfl, g, hl, -⟩ := made_good hp ht hgb h
  obtain ⟨m2, as, d2, P2, e2, g2, ep, hn2, hle⟩ := calls_good hp cs g hk
  obtain ⟨m3, e3, o3⟩ := destroy_own g2.own
  rw [hn2 (noFail_of hg hf), hl] at o3
  exact ⟨m2, as, m3, e2, by rw [← ep]; exact e3, funext fun a => o3.rest a (by simp)⟩

/-- Sequences without `ini_parser_delete_section` are always allowed. -/
theorem keep_of_no_delSec (pick : Policy) (p : Addr) : ∀ (cs : List Call) (m : Mem), (∀ s, .delSec s ∉ cs) → AllKeep pick m p cs
  | [], _, _ => trivial
  | c :: cs, m, h => by
    refine ⟨?_, fun m' a _ => keep_of_no_delSec pick p cs m' fun s hs => h s (by simp [hs])⟩
    cases c with
    | delSec s => exact absurd (by simp) (h s)
    | put => trivial
    | get => trivial
    | delKey => trivial

/-! ### The answers -/

/-- The call of an operation of the specification. -/
def ofOp : Op → Call
  | .put s k v => .put s (some k) (some v)
  | .delKey s k => .delKey s k
  | .delSec s => .delSec s

theorem val_abs (k : List Byte) : ∀ (kvs : List KvD), (kvs.find? fun x => ciEq k x.key).map (·.value) =
    IniParser.valK (kvs.map KvD.abs) (norm k)
  | [] => rfl
  | x :: kvs => by
    have ih := val_abs k kvs
    unfold IniParser.valK at ih ⊢
    rw [List.map_cons, List.find?_cons, List.find?_cons]
    have : (norm x.abs.key == norm k) = ciEq k x.key := by
      rw [Bool.eq_iff_iff, beq_iff_eq, IniParser.ciEq_iff]
      exact eq_comm
    rw [this]
    cases ciEq k x.key with
    | true => rfl
    | false => exact ih

theorem target_rep {m : Mem} {base : Addr → Option Obj} {d : DocD} {P : Parser} (g : Good m base d P) {D : Doc}
    (r : IniParser.Rep P D) {s : List Byte} (hs : s ≠ []) : (target d s).map SecD.abs = IniParser.searchList P.secs s := by
  have h1 := g.sim.search g.own hs
  rw [IniParser.search_eq r.inv hs, Option.some.injEq] at h1
  cases ht : target d s with
  | none =>
    rw [ht, Option.map_none, Option.map_eq_none_iff] at h1
    rw [h1]; rfl
  | some t =>
    rw [ht] at h1
    simp only [Option.map_some, Option.map_eq_some_iff] at h1
    obtain ⟨q, hq, e⟩ := h1
    rw [hq, Option.map_some, Option.some.injEq]
    have hm : q ∈ P.secs := List.mem_of_find?_eq_some hq
    rw [g.sim.secs] at hm
    obtain ⟨x, hx, rfl⟩ := List.mem_map.mp hm
    have e1 := find_id g.sim.ids (target_mem ht)
    have e2 := find_id g.sim.ids hx
    rw [show x.id = t.id from e] at e2
    rw [e1] at e2
    injection e2

theorem lookup_rep {m : Mem} {base : Addr → Option Obj} {d : DocD} {P : Parser} (g : Good m base d P) {D : Doc}
    (r : IniParser.Rep P D) {s : List Byte} (hs : s ≠ []) (k : List Byte) :
    lookup m d.p s k = some (D.val (norm s) (norm k)) := by
  rw [lookup_own g.own g.sim.lastOk hs, r.val, IniParser.valL_eq, ← target_rep g r hs]
  cases target d s with
  | none => rfl
  | some t =>
    simp only [Option.bind_some, Option.map_some, Option.some.injEq]
    exact val_abs k t.kvs

theorem calls_spec {pick : Policy} (hp : Sound pick) {base : Addr → Option Obj} (hn : NoFail pick base) : ∀ (ops : List Op) {m : Mem}
    {d : DocD} {P : Parser} {D : Doc}, Good m base d P → IniParser.Rep P D → Ok D ops →
    AllKeep pick m d.p (ops.map ofOp) ∧
    ∃ m' d' P', calls pick m d.p (ops.map ofOp) = some (m', (IniParser.Spec.run D ops).2.map .code) ∧ Good m' base d' P' ∧
      d'.p = d.p ∧ IniParser.Rep P' (IniParser.Spec.run D ops).1 ∧ d'.leaked = d.leaked
  | [], m, d, P, D, g, r, _ => ⟨trivial, m, d, P, rfl, g, rfl, r, rfl⟩
  | o :: ops, m, d, P, D, g, r, hok => by
    obtain ⟨hf, hkr, hrest⟩ := hok
    obtain ⟨P1, e1, r1⟩ := IniParser.exec_rep r hf hkr
    have step : KeepsLast m d.p (ofOp o) ∧ ∃ m1 d1, call pick m d.p (ofOp o) = some (m1, .code (IniParser.Spec.step D o).2) ∧
        Good m1 base d1 P1 ∧ d1.p = d.p ∧ d1.leaked = d.leaked := by
      cases o with
      | put s k v =>
        obtain ⟨m', c, d', P', a, e, ow, ep, hs, epure, hnf, hl⟩ := put_sim hp g.own g.sim s (some k) (some v)
        obtain ⟨rfl, hlk⟩ := hnf hn
        rw [show IniParser.putString P s (some k) (some v) Allocs.ok = _ from e1] at epure
        simp only [Option.some.injEq, Prod.mk.injEq] at epure
        obtain ⟨rfl, rfl⟩ := epure
        exact ⟨trivial, m', d', by simp only [ofOp, call, e, Option.map_some], ⟨ow, hs⟩, ep, hlk⟩
      | delKey s k =>
        obtain ⟨m', c, d', P', e, ow, ep, hs, epure, hl⟩ := delKey_sim g.own g.sim s k
        rw [show IniParser.deleteKey P s k = _ from e1] at epure
        simp only [Option.some.injEq, Prod.mk.injEq] at epure
        obtain ⟨rfl, rfl⟩ := epure
        exact ⟨trivial, m', d', by simp only [ofOp, call, e, Option.map_some], ⟨ow, hs⟩, ep, hl⟩
      | delSec s =>
        have hlast : s ≠ [] → ∀ t, target d s = some t → t.sec ≠ d.last := by
          intro hs t ht he
          apply hkr
          rw [r.recent]
          unfold IniParser.recentOf IniParser.cached
          rcases g.sim.last with ⟨h1, _⟩ | ⟨x, hx, h1, h2⟩
          · exact absurd (he.trans h1) (g.own.nz _ (mem_info (target_mem ht)))
          · have hxt : x = t := by
              have a1 := find_sec (secs_nodup g.own) hx
              have a2 := find_sec (secs_nodup g.own) (target_mem ht)
              rw [h1] at a1
              rw [he, a1] at a2
              injection a2
            subst hxt
            rw [h2]
            simp only
            rw [g.sim.secs, find_id g.sim.ids hx]
            simp only [Option.map_some, Option.bind_some, id]
            congr 1
            have h3 := target_rep g r hs
            rw [ht, Option.map_some] at h3
            unfold IniParser.searchList at h3
            have h4 := List.find?_some (p := fun q : Sec => ciEq s q.name) h3.symm
            exact (IniParser.ciEq_iff.mp h4).symm
        obtain ⟨m', c, d', P', e, ow, ep, hs, epure, hl⟩ := delSec_sim g.own g.sim s hlast
        rw [show IniParser.deleteSection P s = _ from e1] at epure
        simp only [Option.some.injEq, Prod.mk.injEq] at epure
        obtain ⟨rfl, rfl⟩ := epure
        refine ⟨?_, m', d', by simp only [ofOp, call, e, Option.map_some], ⟨ow, hs⟩, ep, hl⟩
        intro x rt n hx hg
        by_cases hs : s = []
        · subst hs
          rw [search_nil_heap] at hx
          cases hx
        · rw [search_own g.own g.sim.lastOk hs, Option.some.injEq, Option.map_eq_some_iff] at hx
          obtain ⟨t, ht, rfl⟩ := hx
          rw [getParser_own g.own (mem_parser d)] at hg
          simp only [Option.some.injEq, Prod.mk.injEq] at hg
          exact hlast hs t ht hg.2.1.symm
    obtain ⟨hk, m1, d1, ec, g1, ep1, hl1⟩ := step
    obtain ⟨hk2, m2, d2, P2, e2, g2, ep2, r2, hl2⟩ := calls_spec hp hn ops g1 r1 hrest
    rw [ep1] at e2 hk2
    refine ⟨⟨hk, ?_⟩, m2, d2, P2, ?_, g2, ep2.trans ep1, r2, hl2.trans hl1⟩
    · intro m' a e
      rw [ec] at e
      simp only [Option.some.injEq, Prod.mk.injEq] at e
      rw [← e.1]; exact hk2
    · rw [List.map_cons]
      unfold calls
      rw [ec, Option.bind_some, e2]; rfl

/-- **C97**, with C43: with memory available, every history within the limits of C43 runs on the heap without undefined
behaviour, every call answers as the specification of C43 says, every value is read back as specified, and destroying
the parser restores the heap. -/
theorem history {pick : Policy} (hp : Sound pick) (hg : Grants pick) (m : Mem) (hf : Finite m.heap)
    (garbage : List Byte) (hgb : garbage.length = 200) (ops : List Op) (hok : Ok IniParser.Spec.empty ops) :
    ∃ m1 p m2 m3, parseStr pick m none garbage = some (m1, some p) ∧
      calls pick m1 p (ops.map ofOp) = some (m2, (IniParser.Spec.run IniParser.Spec.empty ops).2.map .code) ∧
      (∀ s k, s ≠ [] → lookup m2 p s k = some ((IniParser.Spec.run IniParser.Spec.empty ops).1.val (norm s) (norm k))) ∧
      destroy m2 p = some m3 ∧ m3.heap = m.heap := by
  obtain ⟨m1, q, e1, -, hq, hz⟩ := parse_own hp m (src := none) nofun hgb
  cases q with
  | none =>
    have := (hz (noFail_of hg hf) rfl).1
    cases this
  | some p =>
    obtain ⟨d, P, rfl, g, hl, hw⟩ := hq p rfl
    simp only [wanted, Option.some.injEq] at hw
    subst hw
    obtain ⟨-, m2, d2, P2, e2, g2, ep, r2, hl2⟩ := calls_spec hp (noFail_of hg hf) ops g IniParser.rep_create hok
    obtain ⟨m3, e3, o3⟩ := destroy_own g2.own
    rw [hl2, hl] at o3
    rw [ep] at e3
    refine ⟨m1, d.p, m2, m3, e1, e2, ?_, e3, funext fun a => o3.rest a (by simp)⟩
    intro s k hs
    have := lookup_rep g2 r2 hs k
    rwa [ep] at this

/-! ### Puts that fail -/

theorem put_fail_secs {P P' : Parser} {s : List Byte} {k v : Option (List Byte)} {a : Allocs} {c : Code}
    (h : IniParser.putString P s k v a = some (P', c)) (hc : c ≠ .succeed) :
    P'.secs = P.secs ∨ P'.secs = P.secs ++ [⟨P.next, s.take 63, []⟩] := by
  unfold IniParser.putString at h
  cases k with
  | none =>
    simp only [Option.some.injEq, Prod.mk.injEq] at h
    rw [← h.1]; exact Or.inl rfl
  | some k =>
    simp only at h
    split at h
    · simp only [Option.some.injEq, Prod.mk.injEq] at h
      rw [← h.1]; exact Or.inl rfl
    · have hadd : ∀ Q r, IniParser.searchOrAdd P s a = some (Q, r) →
          Q.secs = P.secs ∨ Q.secs = P.secs ++ [⟨P.next, s.take 63, []⟩] := by
        intro Q r hq
        unfold IniParser.searchOrAdd at hq
        rw [Option.map_eq_some_iff] at hq
        obtain ⟨z, _, hq⟩ := hq
        cases z with
        | some x =>
          simp only [Prod.mk.injEq] at hq
          rw [← hq.1]; exact Or.inl rfl
        | none =>
          simp only at hq
          split at hq
          · simp only [Prod.mk.injEq] at hq
            rw [← hq.1]; exact Or.inl rfl
          · unfold IniParser.addSection at hq
            split at hq
            · simp only [Prod.mk.injEq] at hq
              rw [← hq.1]; exact Or.inl rfl
            · simp only [Prod.mk.injEq] at hq
              rw [← hq.1]; exact Or.inr rfl
      split at h
      · cases h
      · rename_i Q hQ
        simp only [Option.some.injEq, Prod.mk.injEq] at h
        rw [← h.1]; exact hadd _ _ hQ
      · rename_i Q x hQ
        rw [Option.map_eq_some_iff] at h
        obtain ⟨kvs, _, h⟩ := h
        split at h
        · simp only [Prod.mk.injEq] at h
          exact absurd h.2.symm hc
        · split at h
          · simp only [Prod.mk.injEq] at h
            rw [← h.1]; exact hadd _ _ hQ
          · split at h
            · simp only [Prod.mk.injEq] at h
              exact absurd h.2.symm hc
            · simp only [Prod.mk.injEq] at h
              rw [← h.1]; exact hadd _ _ hQ

/-- **C97**: a put that does not report success leaves every entry of every section as it was; at most an empty section
is there in addition. -/
theorem failed_put {pick : Policy} (hp : Sound pick) {m m1 m2 m3 : Mem} {p : Addr} {src : Option (List Byte)} (ht : Text src)
    {garbage : List Byte} (hgb : garbage.length = 200) (h : parseStr pick m src garbage = some (m1, some p))
    {cs : List Call} (hk : AllKeep pick m1 p cs) {as : List Ans} (hcs : calls pick m1 p cs = some (m2, as))
    {s : List Byte} {k v : Option (List Byte)} {c : Code} (hput : putString pick m2 p s k v = some (m3, c)) (hc : c ≠ .succeed) :
    ∃ doc, readAll m2 p = some doc ∧ (readAll m3 p = some doc ∨ readAll m3 p = some (doc ++ [(s.take 63, [])])) := by
  obtain ⟨d, P, rfl, g, hl, -⟩ := made_good hp ht hgb h
  obtain ⟨m2', as', d2, P2, e2, g2, ep, -⟩ := calls_good hp cs g hk
  rw [hcs] at e2
  simp only [Option.some.injEq, Prod.mk.injEq] at e2
  obtain ⟨rfl, rfl⟩ := e2
  obtain ⟨m', c', d', P', a, e, o, ep', hs, epure, -⟩ := put_sim hp g2.own g2.sim s k v
  rw [ep, hput] at e
  simp only [Option.some.injEq, Prod.mk.injEq] at e
  obtain ⟨rfl, rfl⟩ := e
  have h1 := readAll_good g2
  have h2 := readAll_good (⟨o, hs⟩ : Good m3 m.heap d' P')
  rw [ep] at h1
  rw [ep', ep] at h2
  refine ⟨_, h1, ?_⟩
  rw [h2]
  rcases put_fail_secs epure hc with e | e
  · exact Or.inl (by unfold docText; rw [e])
  · exact Or.inr (by unfold docText; rw [e, List.map_append]; rfl)

/-! ### Deleting the section created last -/

theorem ciEq_take (s : List Byte) (h : s.length ≤ 63) : ciEq s (s.take 63) = true := by
  rw [List.take_of_length_le h]
  simp [ciEq]

/-- Finding (C44): after a put has created a section, `ini_parser_delete_section` of that section succeeds, and then every
call that searches a section reads the freed block; only `ini_parser_destroy` still works. -/
theorem delete_last_then_use {pick : Policy} (hp : Sound pick) {m m1 m2 m3 : Mem} {p : Addr} {src : Option (List Byte)}
    (ht : Text src) {garbage : List Byte} (hgb : garbage.length = 200) (h : parseStr pick m src garbage = some (m1, some p))
    {cs : List Call} (hk : AllKeep pick m1 p cs) {as : List Ans} (hcs : calls pick m1 p cs = some (m2, as))
    {s key : List Byte} {v : Option (List Byte)} (hs : s ≠ []) (hlen : s.length ≤ 63) (hkey : key ≠ [])
    (hnew : search m2 p s = some none) (hput : putString pick m2 p s (some key) v = some (m3, .succeed)) :
    ∃ m4 m5, deleteSection m3 p s = some (m4, .succeed) ∧ (∀ s', s' ≠ [] → search m4 p s' = none) ∧ destroy m4 p = some m5 := by
  obtain ⟨d0, P0, rfl, g0, hl, -⟩ := made_good hp ht hgb h
  obtain ⟨m2', as', d, P, e2, g, ep, -⟩ := calls_good hp cs g0 hk
  rw [hcs] at e2
  simp only [Option.some.injEq, Prod.mk.injEq] at e2
  obtain ⟨rfl, rfl⟩ := e2
  rw [← ep] at hnew hput ⊢
  rw [search_own g.own g.sim.lastOk hs, Option.some.injEq, Option.map_eq_none_iff] at hnew
  unfold putString at hput
  simp only at hput
  rw [if_neg (by
    rintro (h | h)
    · exact hkey h
    · have := List.length_pos_iff.mpr hs
      omega), search_own g.own g.sim.lastOk hs, hnew, Option.bind_some] at hput
  simp only [Option.map_none] at hput
  rcases addSection_own hp g.own s P.next with ⟨mx, lk, e1, -⟩ | ⟨mx, x, n, l, e1, o1⟩
  · rw [e1, Option.bind_some] at hput
    simp at hput
  rw [e1, Option.bind_some] at hput
  simp only at hput
  obtain ⟨m', c, kvs', kv, kvNode, e3, o3, -⟩ := putEntry_own hp o1 (u := d.secs) (w := []) rfl key (v.getD [])
  rw [hput] at e3
  simp only [Option.some.injEq, Prod.mk.injEq] at e3
  obtain ⟨rfl, rfl⟩ := e3
  generalize hd1 : DocD.upd _ d.secs _ kvs' [] = d1 at o3
  have hsecs : d1.secs = d.secs ++ ⟨P.next, n, x, l, s.take 63, kvs'⟩ :: [] := by rw [← hd1]
  have hlast : d1.last = x := by rw [← hd1]
  have hdp : d1.p = d.p := by rw [← hd1]
  have hmem : (⟨P.next, n, x, l, s.take 63, kvs'⟩ : SecD) ∈ d1.secs := by rw [hsecs]; simp
  have hlo : LastOk d1 := Or.inr ⟨_, hmem, hlast.symm⟩
  have htg : target d1 s = some ⟨P.next, n, x, l, s.take 63, kvs'⟩ := by
    unfold target
    have := find_sec (secs_nodup o3) hmem
    rw [hlast, show (d1.secs.find? fun t => t.sec == x) = _ from this]
    simp only [Option.filter, ciEq_take s hlen, if_true]
  obtain ⟨m4, e4, o4⟩ := deleteSection_own o3 hlo hs hsecs htg
  obtain ⟨m5, e5, -⟩ := destroy_own o4
  rw [hdp] at e4
  refine ⟨m4, m5, e4, ?_, by rw [← hdp]; exact e5⟩
  intro s' hs'
  unfold search
  rw [if_neg hs', ← hdp, getParser_own o4 (mem_parser _), Option.bind_some]
  simp only
  rw [hlast, if_neg (o3.nz _ (mem_info hmem))]
  have hfree : m4.heap x = none := by
    rw [o4.rest x ?_]
    · exact o3.fresh _ (mem_info hmem)
    · have hnd := (o3.perm (objs_split d1 hsecs)).nodup
      rw [List.map_append, List.nodup_append] at hnd
      intro hx
      refine hnd.2.2 x (by simp [SecD.objs]) x ?_ rfl
      simpa [DocD.objs, DocD.frame] using hx
  unfold getSec
  rw [hfree]
  rfl

/-! ### The leak -/

/-- An allocator that refuses the requests in `bad`. -/
def bump (bad : List Nat) : Policy := fun h n => if n ∈ bad then none else if h (n + 1) = none then some (n + 1) else none

theorem bump_sound (bad : List Nat) : Sound (bump bad) := by
  intro h n a e
  unfold bump at e
  split at e
  · cases e
  · split at e
    · rename_i h0
      injection e with e
      subst e
      exact ⟨Nat.succ_ne_zero _, h0⟩
    · cases e

/-- An empty heap. -/
def noHeap : Mem := ⟨fun _ => none, 0⟩

/-- Finding (ini_parser.c 280-284): when the node of a new section cannot be allocated, the list of that section is never
freed: here the fifth request (number 4) is refused, the put reports it, and after `ini_parser_destroy` block 4 is
still allocated. -/
theorem leak_example : ∃ m1 p m2 m3, parseStr (bump [4]) noHeap none [] = some (m1, some p) ∧
    putString (bump [4]) m1 p [97] (some [98]) (some [99]) = some (m2, .noMemory) ∧ destroy m2 p = some m3 ∧
    m3.heap 4 = some (.list []) ∧ noHeap.heap 4 = none := by
  refine ⟨_, _, _, _, rfl, rfl, rfl, ?_, rfl⟩
  decide

end Verif.IniHeap
