import Verif.IniHeap.Ops
import Verif.IniParser.Props
/-!
# The heap and the document of `Verif.IniParser`
-/
namespace Verif.IniHeap
open Verif.IniParser (ciEq Code KV Sec Parser findKey setKvs kvsAt Allocs)

/-- The heap holds the document. -/
structure Sim (d : DocD) (P : Parser) : Prop where
  secs : P.secs = d.secs.map SecD.abs
  pred : P.pred = d.pred
  ids : d.secs.Pairwise fun a b => a.id ≠ b.id
  fresh : ∀ t ∈ d.secs, t.id < P.next
  last : (d.last = 0 ∧ P.last = none) ∨ ∃ t ∈ d.secs, t.sec = d.last ∧ P.last = some t.id

theorem Sim.lastOk {d : DocD} {P : Parser} (h : Sim d P) : LastOk d := by
  rcases h.last with ⟨h1, _⟩ | ⟨t, ht, h1, _⟩
  · exact Or.inl h1
  · exact Or.inr ⟨t, ht, h1⟩

theorem find_id {l : List SecD} (h : l.Pairwise fun a b => a.id ≠ b.id) {t : SecD} (ht : t ∈ l) :
    ((l.map SecD.abs).find? fun s => s.addr == t.id) = some t.abs := by
  induction l with
  | nil => simp at ht
  | cons x l ih =>
    rw [List.pairwise_cons] at h
    rw [List.map_cons, List.find?_cons]
    rcases List.mem_cons.mp ht with rfl | ht
    · simp [SecD.abs]
    · have hb : (x.abs.addr == t.id) = false := by simpa [SecD.abs] using h.1 t ht
      rw [hb]; exact ih h.2 ht

theorem Sim.kvsAt {d : DocD} {P : Parser} (h : Sim d P) {t : SecD} (ht : t ∈ d.secs) :
    kvsAt P t.id = some (t.kvs.map KvD.abs) := by
  unfold IniParser.kvsAt
  rw [h.secs, find_id h.ids ht]; rfl

theorem Sim.search {m : Mem} {base : Addr → Option Obj} {d : DocD} {P : Parser} (h : Sim d P) (o : OwnM m base d.objs)
    {s : List Byte} (hs : s ≠ []) : IniParser.search P s = some ((target d s).map (·.id)) := by
  have hw : (IniParser.searchList P.secs s).map (·.addr) = (d.secs.find? fun t => ciEq s t.name).map (·.id) := by
    unfold IniParser.searchList
    rw [h.secs, List.find?_map, Option.map_map]
    rfl
  unfold IniParser.search IniParser.cached target
  rw [if_neg hs, hw]
  rcases h.last with ⟨h1, h2⟩ | ⟨t, ht, h1, h2⟩
  · rw [h2]
    have : (d.secs.find? fun t => t.sec == d.last) = none := by
      rw [List.find?_eq_none]
      intro t ht
      have := o.nz _ (mem_info ht)
      simp only at this
      simp [h1, this]
    rw [this]; rfl
  · rw [h2]
    simp only
    rw [h.secs, find_id h.ids ht]
    have hf := find_sec (secs_nodup o) ht
    rw [h1] at hf
    rw [hf]
    simp only [Option.map_some, Option.filter]
    by_cases hc : ciEq s t.name = true
    · rw [if_pos hc, if_pos (show ciEq s t.abs.name = true from hc)]; rfl
    · rw [if_neg hc, if_neg (show ¬ ciEq s t.abs.name = true from hc)]

/-- The entries of one section change. -/
theorem Sim.upd {d : DocD} {P : Parser} (h : Sim d P) {u w : List SecD} {t : SecD} (hs : d.secs = u ++ t :: w)
    {kvs : List KvD} {f : List KV → List KV} (hf : f (t.kvs.map KvD.abs) = kvs.map KvD.abs) :
    Sim (d.upd u t kvs w) (setKvs P t.id f) := by
  have hi := h.ids
  rw [hs, List.pairwise_append, List.pairwise_cons] at hi
  refine ⟨?_, h.pred, ?_, ?_, ?_⟩
  · show (P.secs.map _) = _
    rw [h.secs, hs]
    simp only [List.map_append, List.map_cons, List.map_map]
    congr 1
    · apply List.map_congr_left
      intro x hx
      simp only [Function.comp]
      rw [if_neg (show x.abs.addr ≠ t.id from hi.2.2 x hx t (by simp))]
    · congr 1
      · rw [if_pos (show t.abs.addr = t.id from rfl)]
        show Sec.mk t.id t.name (f (t.kvs.map KvD.abs)) = _
        rw [hf]; rfl
      · apply List.map_congr_left
        intro x hx
        simp only [Function.comp]
        rw [if_neg (show x.abs.addr ≠ t.id from fun e => hi.2.1.1 x hx e.symm)]
  · show (u ++ ({ t with kvs := kvs } : SecD) :: w).Pairwise _
    rw [List.pairwise_append, List.pairwise_cons]
    refine ⟨hi.1, ⟨hi.2.1.1, hi.2.1.2⟩, ?_⟩
    intro a ha b hb
    rcases List.mem_cons.mp hb with rfl | hb
    · exact hi.2.2 a ha t (by simp)
    · exact hi.2.2 a ha b (by simp [hb])
  · intro x hx
    simp only [List.mem_append, List.mem_cons] at hx
    show x.id < P.next
    rcases hx with hx | rfl | hx
    · exact h.fresh x (by rw [hs]; simp [hx])
    · exact h.fresh t (by rw [hs]; simp)
    · exact h.fresh x (by rw [hs]; simp [hx])
  · rcases h.last with h1 | ⟨x, hx, h1, h2⟩
    · exact Or.inl h1
    · right
      rw [hs] at hx
      simp only [List.mem_append, List.mem_cons] at hx
      rcases hx with hx | rfl | hx
      · exact ⟨x, by simp [hx], h1, h2⟩
      · exact ⟨{ x with kvs := kvs }, by simp, h1, h2⟩
      · exact ⟨x, by simp [hx], h1, h2⟩

theorem Sim.leak {d : DocD} {P : Parser} (h : Sim d P) (lk : List Addr) : Sim { d with leaked := lk } P :=
  ⟨h.secs, h.pred, h.ids, h.fresh, h.last⟩

/-- The second half of a put, in `Verif.IniParser.putString`. -/
def finish (P : Parser) (x : Nat) (kvs : List KV) (key value : List Byte) (kv kvNode : Bool) : Parser × Code :=
  match findKey kvs key with
  | some i => (setKvs P x fun kvs => kvs.modify i fun kv => { kv with value := value.take 255 }, .succeed)
  | none =>
    if !kv then (P, .noMemory)
    else if kvNode then (setKvs P x fun kvs => kvs ++ [{ key := key.take 63, value := value.take 255 }], .succeed)
    else (P, .failed)

theorem Sim.finish {d : DocD} {P : Parser} (h : Sim d P) {u w : List SecD} {t : SecD} (hs : d.secs = u ++ t :: w)
    {kvs : List KvD} {c : Code} {key value : List Byte} {kv kvNode : Bool}
    (e : (kvs.map KvD.abs, c) = entryOf (t.kvs.map KvD.abs) key value kv kvNode) :
    Sim (d.upd u t kvs w) (IniHeap.finish P t.id (t.kvs.map KvD.abs) key value kv kvNode).1 ∧
      (IniHeap.finish P t.id (t.kvs.map KvD.abs) key value kv kvNode).2 = c := by
  have same : kvs.map KvD.abs = t.kvs.map KvD.abs → Sim (d.upd u t kvs w) P := by
    intro he
    have := h.upd hs (kvs := kvs) (f := id) he.symm
    have e2 : setKvs P t.id id = P := by
      unfold setKvs
      have : (P.secs.map fun s => if s.addr = t.id then { s with kvs := id s.kvs } else s) = P.secs := by
        conv => rhs; rw [← List.map_id P.secs]
        apply List.map_congr_left
        intro s _
        by_cases hsa : s.addr = t.id
        · rw [if_pos hsa]; rfl
        · rw [if_neg hsa]; rfl
      rw [this]
    rwa [e2] at this
  unfold entryOf at e
  unfold IniHeap.finish
  cases hk : findKey (t.kvs.map KvD.abs) key with
  | some i =>
    rw [hk] at e
    simp only [Prod.mk.injEq] at e
    exact ⟨h.upd hs e.1.symm, e.2.symm⟩
  | none =>
    rw [hk] at e
    simp only at e ⊢
    cases kv with
    | false =>
      simp only [Bool.not_false, if_true, Prod.mk.injEq] at e
      exact ⟨same e.1, e.2.symm⟩
    | true =>
      simp only [Bool.not_true, Bool.false_eq_true, if_false] at e ⊢
      cases kvNode with
      | false =>
        simp only [Bool.false_eq_true, if_false, Prod.mk.injEq] at e
        exact ⟨same e.1, e.2.symm⟩
      | true =>
        simp only [if_true, Prod.mk.injEq] at e
        rw [if_pos rfl]
        simp only
        exact ⟨h.upd hs e.1.symm, e.2.symm⟩

/-- `ini_parser_put_string` on the heap does what it does in `Verif.IniParser`, with some allocations failing. -/
theorem put_sim {pick : Policy} (hp : Sound pick) {m : Mem} {base : Addr → Option Obj} {d : DocD} (o : OwnM m base d.objs)
    {P : Parser} (hsim : Sim d P) (s : List Byte) (key value : Option (List Byte)) :
    ∃ m' c d' P' a, putString pick m d.p s key value = some (m', c) ∧ OwnM m' base d'.objs ∧ d'.p = d.p ∧ Sim d' P' ∧
      IniParser.putString P s key value a = some (P', c) ∧ (NoFail pick base → a = Allocs.ok ∧ d'.leaked = d.leaked) ∧
      (d'.leaked = d.leaked ∨ c = .noMemory ∧ ∃ l, d'.leaked = l :: d.leaked) := by
  unfold putString IniParser.putString
  cases key with
  | none => exact ⟨m, .invalidParam, d, P, .ok, rfl, o, rfl, hsim, rfl, fun _ => ⟨rfl, rfl⟩, Or.inl rfl⟩
  | some key =>
    simp only
    by_cases hc : key = [] ∨ s.length < 1
    · rw [if_pos hc]
      exact ⟨m, .invalidParam, d, P, .ok, rfl, o, rfl, hsim, by rw [if_pos hc], fun _ => ⟨rfl, rfl⟩, Or.inl rfl⟩
    rw [if_neg hc]
    have hs : s ≠ [] := by
      rintro rfl
      exact hc (Or.inr (by simp))
    rw [search_own o hsim.lastOk hs, Option.bind_some]
    cases htg : target d s with
    | some t =>
      simp only [Option.map_some]
      obtain ⟨u, w, hd⟩ := List.append_of_mem (target_mem htg)
      obtain ⟨m', c, kvs', kv, kvNode, e1, o1, e2, hn⟩ := putEntry_own hp o hd key (value.getD [])
      obtain ⟨f1, f2⟩ := hsim.finish hd e2
      refine ⟨m', c, _, _, ⟨true, true, true, kv, kvNode⟩, e1, o1, rfl, f1, ?_, ?_, Or.inl rfl⟩
      · rw [if_neg hc]
        unfold IniParser.searchOrAdd
        rw [hsim.search o hs, htg]
        simp only [Option.map_some]
        rw [hsim.kvsAt (target_mem htg), Option.map_some, ← f2]
        unfold IniHeap.finish
        congr 1
      · intro h
        obtain ⟨rfl, rfl⟩ := hn h
        exact ⟨rfl, rfl⟩
    | none =>
      simp only [Option.map_none]
      rcases addSection_own hp o s P.next with ⟨m1, lk, e1, o1, hn, hlk⟩ | ⟨m1, x, n, l, e1, o1⟩
      · rw [e1, Option.bind_some]
        refine ⟨m1, .noMemory, _, P, ⟨false, true, true, true, true⟩, rfl, o1, rfl, hsim.leak lk, ?_, fun h => absurd h hn, ?_⟩
        · rw [if_neg hc]
          unfold IniParser.searchOrAdd
          rw [hsim.search o hs, htg]
          simp only [Option.map_none, Option.map_some, hs, if_false]
          rfl
        · rcases hlk with hlk | hlk
          · exact Or.inl hlk
          · exact Or.inr ⟨rfl, hlk⟩
      · rw [e1, Option.bind_some]
        simp only
        obtain ⟨m', c, kvs', kv, kvNode, e2, o2, e3, hn⟩ := putEntry_own hp o1 (u := d.secs) (w := []) rfl key (value.getD [])
        have hs1 : Sim ({ d with
            last := x
            pred := d.pred + (s.length + 6)
            secs := d.secs ++ [⟨P.next, n, x, l, s.take 63, []⟩] } : DocD)
            (⟨P.secs ++ [⟨P.next, s.take 63, []⟩], P.pred + (s.length + 6), some P.next, P.next + 1⟩ : Parser) := by
          refine ⟨?_, ?_, ?_, ?_, ?_⟩
          · simp only [hsim.secs, List.map_append]; rfl
          · simp only [hsim.pred]
          · rw [List.pairwise_append]
            refine ⟨hsim.ids, by simp, ?_⟩
            intro a ha b hb
            rw [List.mem_singleton] at hb
            subst hb
            have := hsim.fresh a ha
            simp only
            omega
          · intro t ht
            simp only [List.mem_append, List.mem_singleton] at ht
            rcases ht with ht | rfl
            · have := hsim.fresh t ht
              simp only
              omega
            · simp only
              omega
          · exact Or.inr ⟨⟨P.next, n, x, l, s.take 63, []⟩, by simp, rfl, rfl⟩
        obtain ⟨f1, f2⟩ := hs1.finish rfl e3
        refine ⟨m', c, _, _, ⟨true, true, true, kv, kvNode⟩, e2, o2, rfl, f1, ?_, ?_, Or.inl rfl⟩
        · rw [if_neg hc]
          unfold IniParser.searchOrAdd
          rw [hsim.search o hs, htg]
          simp only [Option.map_none, Option.map_some, hs, if_false]
          simp only [IniParser.addSection, Bool.not_true, Bool.false_eq_true, or_self, if_false]
          have hkv := hs1.kvsAt (t := ⟨P.next, n, x, l, s.take 63, []⟩) (by simp)
          simp only at hkv
          rw [hkv, Option.map_some, ← f2]
          congr 1
        · intro h
          obtain ⟨rfl, rfl⟩ := hn h
          exact ⟨rfl, rfl⟩

theorem search_nil_heap (m : Mem) (p : Addr) : search m p [] = some none := by simp [search]

/-- `ini_parser_delete_by_section_key`. -/
theorem delKey_sim {m : Mem} {base : Addr → Option Obj} {d : DocD} (o : OwnM m base d.objs)
    {P : Parser} (hsim : Sim d P) (s key : List Byte) :
    ∃ m' c d' P', deleteKey m d.p s key = some (m', c) ∧ OwnM m' base d'.objs ∧ d'.p = d.p ∧ Sim d' P' ∧
      IniParser.deleteKey P s key = some (P', c) ∧ d'.leaked = d.leaked := by
  by_cases hs : s = []
  · subst hs
    refine ⟨m, .notFound, d, P, ?_, o, rfl, hsim, ?_, rfl⟩
    · unfold deleteKey; rw [search_nil_heap]; rfl
    · unfold IniParser.deleteKey; rw [IniParser.search_nil]
  cases htg : target d s with
  | none =>
    refine ⟨m, .notFound, d, P, ?_, o, rfl, hsim, ?_, rfl⟩
    · unfold deleteKey; rw [search_own o hsim.lastOk hs, htg]; rfl
    · unfold IniParser.deleteKey; rw [hsim.search o hs, htg]; rfl
  | some t =>
    obtain ⟨u, w, hd⟩ := List.append_of_mem (target_mem htg)
    rcases deleteKey_own o hsim.lastOk hs hd htg key with ⟨h1, e1⟩ | ⟨m', a, k, b, ek, h1, e1, o1⟩
    · refine ⟨m, .notFound, d, P, e1, o, rfl, hsim, ?_, rfl⟩
      unfold IniParser.deleteKey
      rw [hsim.search o hs, htg]
      simp only [Option.map_some]
      rw [hsim.kvsAt (target_mem htg), Option.map_some, h1]
    · refine ⟨m', .succeed, _, setKvs P t.id fun kvs => kvs.eraseIdx a.length, e1, o1, rfl, hsim.upd hd ?_, ?_, rfl⟩
      · rw [ek, ← List.length_map (f := KvD.abs) (as := a)]
        simp only [List.map_append, List.map_cons]
        rw [erase_mid]
      · unfold IniParser.deleteKey
        rw [hsim.search o hs, htg]
        simp only [Option.map_some]
        rw [hsim.kvsAt (target_mem htg), Option.map_some, h1]

/-- `ini_parser_delete_section` of a section that is not the cached one. -/
theorem delSec_sim {m : Mem} {base : Addr → Option Obj} {d : DocD} (o : OwnM m base d.objs)
    {P : Parser} (hsim : Sim d P) (s : List Byte)
    (hk : s ≠ [] → ∀ t, target d s = some t → t.sec ≠ d.last) :
    ∃ m' c d' P', deleteSection m d.p s = some (m', c) ∧ OwnM m' base d'.objs ∧ d'.p = d.p ∧ Sim d' P' ∧
      IniParser.deleteSection P s = some (P', c) ∧ d'.leaked = d.leaked := by
  by_cases hs : s = []
  · subst hs
    refine ⟨m, .notFound, d, P, ?_, o, rfl, hsim, ?_, rfl⟩
    · unfold deleteSection; rw [search_nil_heap]; rfl
    · unfold IniParser.deleteSection; rw [IniParser.search_nil]; rfl
  cases htg : target d s with
  | none =>
    refine ⟨m, .notFound, d, P, ?_, o, rfl, hsim, ?_, rfl⟩
    · unfold deleteSection; rw [search_own o hsim.lastOk hs, htg]; rfl
    · unfold IniParser.deleteSection; rw [hsim.search o hs, htg]; rfl
  | some t =>
    obtain ⟨u, w, hd⟩ := List.append_of_mem (target_mem htg)
    obtain ⟨m', e1, o1⟩ := deleteSection_own o hsim.lastOk hs hd htg
    have hi := hsim.ids
    rw [hd, List.pairwise_append, List.pairwise_cons] at hi
    refine ⟨m', .succeed, _, { P with secs := P.secs.filter fun s => s.addr ≠ t.id }, e1, o1, rfl, ?_, ?_, rfl⟩
    · refine ⟨?_, hsim.pred, ?_, ?_, ?_⟩
      · simp only
        rw [hsim.secs, hd]
        have f : ∀ l : List SecD, (∀ x ∈ l, x.id ≠ t.id) → ((l.map SecD.abs).filter fun s => decide (s.addr ≠ t.id)) = l.map SecD.abs := by
          intro l hl
          rw [List.filter_eq_self]
          intro x hx
          obtain ⟨y, hy, rfl⟩ := List.mem_map.mp hx
          exact decide_eq_true (hl y hy)
        rw [List.map_append, List.map_cons, List.filter_append, List.filter_cons, f u fun x hx => hi.2.2 x hx t (by simp),
          f w fun x hx e => hi.2.1.1 x hx e.symm, if_neg (by simp [SecD.abs]), List.map_append]
      · show (u ++ w).Pairwise _
        rw [List.pairwise_append]
        exact ⟨hi.1, hi.2.1.2, fun a ha b hb => hi.2.2 a ha b (by simp [hb])⟩
      · intro x hx
        refine hsim.fresh x ?_
        rw [hd]
        simp only [List.mem_append, List.mem_cons] at hx ⊢
        rcases hx with hx | hx
        · exact Or.inl hx
        · exact Or.inr (Or.inr hx)
      · rcases hsim.last with h1 | ⟨x, hx, h1, h2⟩
        · exact Or.inl h1
        · right
          refine ⟨x, ?_, h1, h2⟩
          rw [hd] at hx
          simp only [List.mem_append, List.mem_cons] at hx ⊢
          rcases hx with hx | rfl | hx
          · exact Or.inl hx
          · exact absurd h1 (hk hs x htg)
          · exact Or.inr hx
    · unfold IniParser.deleteSection
      rw [hsim.search o hs, htg]
      rfl

end Verif.IniHeap
