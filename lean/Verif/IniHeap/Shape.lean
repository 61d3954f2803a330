import Verif.IniHeap.Own
import Verif.IniParser.History
/-!
# The shape of a parser on the heap
-/
namespace Verif.IniHeap
open Verif.IniParser (ciEq Code KV Sec Parser findKey)

/-- An entry and its list node. -/
structure KvD where
  node : Addr
  kv : Addr
  key : List Byte
  value : List Byte

/-- A section, its list node, its list; `id` is its number in `Verif.IniParser`. -/
structure SecD where
  id : Nat
  node : Addr
  sec : Addr
  lst : Addr
  name : List Byte
  kvs : List KvD

/-- A parser; `leaked` are lists nobody can free. -/
structure DocD where
  p : Addr
  root : Addr
  last : Addr
  pred : Nat
  secs : List SecD
  leaked : List Addr

def KvD.objs (k : KvD) : List (Addr × Obj) := [(k.node, .node), (k.kv, .kv k.key k.value)]

def SecD.objs (s : SecD) : List (Addr × Obj) :=
  (s.node, .node) :: (s.sec, .sec s.name s.lst) :: (s.lst, .list (s.kvs.map fun k => (k.node, k.kv))) :: s.kvs.flatMap KvD.objs

def DocD.objs (d : DocD) : List (Addr × Obj) :=
  (d.p, .parser d.root d.last d.pred) :: (d.root, .list (d.secs.map fun s => (s.node, s.sec))) ::
    (d.secs.flatMap SecD.objs ++ d.leaked.map fun a => (a, Obj.list []))

/-- Permutations of concatenations. -/
macro "perm_count" : tactic => `(tactic| (
  rw [List.perm_iff_count]; intro a
  simp only [List.count_append, List.count_cons, List.count_nil, List.flatMap_append, List.flatMap_cons, List.flatMap_nil,
    List.map_append, List.map_cons, List.map_nil, List.append_assoc, List.cons_append, List.nil_append]
  omega))

/-- All but the section `t`. -/
def DocD.frame (d : DocD) (nodes : List (Addr × Addr)) (others : List SecD) : List (Addr × Obj) :=
  (d.p, .parser d.root d.last d.pred) :: (d.root, .list nodes) ::
    (others.flatMap SecD.objs ++ d.leaked.map fun a => (a, Obj.list []))

theorem objs_split (d : DocD) {u w : List SecD} {t : SecD} (h : d.secs = u ++ t :: w) :
    d.objs.Perm (t.objs ++ d.frame (d.secs.map fun s => (s.node, s.sec)) (u ++ w)) := by
  unfold DocD.objs DocD.frame
  have : (d.secs.flatMap SecD.objs).Perm (t.objs ++ (u ++ w).flatMap SecD.objs) := by
    rw [h]; perm_count
  generalize (d.secs.flatMap SecD.objs) = X at this
  rw [List.perm_iff_count] at this ⊢
  intro a
  have := this a
  simp only [List.count_append, List.count_cons] at this ⊢
  omega

theorem SecD.split (t : SecD) {a b : List KvD} {k : KvD} (h : t.kvs = a ++ k :: b) : t.objs.Perm
    (k.objs ++ ((t.node, .node) :: (t.sec, .sec t.name t.lst) :: (t.lst, .list (t.kvs.map fun k => (k.node, k.kv))) ::
      (a ++ b).flatMap KvD.objs)) := by
  unfold SecD.objs
  have : (t.kvs.flatMap KvD.objs).Perm (k.objs ++ (a ++ b).flatMap KvD.objs) := by rw [h]; perm_count
  generalize (t.kvs.flatMap KvD.objs) = X at this
  rw [List.perm_iff_count] at this ⊢
  intro a
  have := this a
  simp only [List.count_append, List.count_cons] at this ⊢
  omega

theorem mem_sec {d : DocD} {t : SecD} (h : t ∈ d.secs) {x : Addr × Obj} (hx : x ∈ t.objs) : x ∈ d.objs := by
  unfold DocD.objs
  simp only [List.mem_cons, List.mem_append, List.mem_flatMap]
  exact Or.inr (Or.inr (Or.inl ⟨t, h, hx⟩))

theorem mem_kv {t : SecD} {k : KvD} (h : k ∈ t.kvs) {x : Addr × Obj} (hx : x ∈ k.objs) : x ∈ t.objs := by
  unfold SecD.objs
  simp only [List.mem_cons, List.mem_flatMap]
  exact Or.inr (Or.inr (Or.inr ⟨k, h, hx⟩))

theorem mem_node {d : DocD} {t : SecD} (h : t ∈ d.secs) : (t.node, Obj.node) ∈ d.objs := mem_sec h (by simp [SecD.objs])
theorem mem_info {d : DocD} {t : SecD} (h : t ∈ d.secs) : (t.sec, Obj.sec t.name t.lst) ∈ d.objs :=
  mem_sec h (by simp [SecD.objs])
theorem mem_lst {d : DocD} {t : SecD} (h : t ∈ d.secs) : (t.lst, Obj.list (t.kvs.map fun k => (k.node, k.kv))) ∈ d.objs :=
  mem_sec h (by simp [SecD.objs])
theorem mem_kvn {d : DocD} {t : SecD} (h : t ∈ d.secs) {k : KvD} (hk : k ∈ t.kvs) : (k.node, Obj.node) ∈ d.objs :=
  mem_sec h (mem_kv hk (by simp [KvD.objs]))
theorem mem_kvv {d : DocD} {t : SecD} (h : t ∈ d.secs) {k : KvD} (hk : k ∈ t.kvs) : (k.kv, Obj.kv k.key k.value) ∈ d.objs :=
  mem_sec h (mem_kv hk (by simp [KvD.objs]))
theorem mem_parser (d : DocD) : (d.p, Obj.parser d.root d.last d.pred) ∈ d.objs := by simp [DocD.objs]
theorem mem_root (d : DocD) : (d.root, Obj.list (d.secs.map fun s => (s.node, s.sec))) ∈ d.objs := by simp [DocD.objs]

/-- Addresses of sections are different. -/
theorem secs_nodup {m : Mem} {base : Addr → Option Obj} {d : DocD} (o : OwnM m base d.objs) :
    d.secs.Pairwise fun a b => a.sec ≠ b.sec := by
  have h := o.nodup
  unfold DocD.objs at h
  simp only [List.map_cons, List.nodup_cons, List.map_append, List.nodup_append] at h
  have h := h.2.2.1
  revert h
  generalize d.secs = l
  intro h
  induction l with
  | nil => exact List.Pairwise.nil
  | cons t l ih =>
    rw [List.flatMap_cons, List.map_append, List.nodup_append] at h
    refine List.pairwise_cons.mpr ⟨?_, ih h.2.1⟩
    intro b hb e
    refine h.2.2 t.sec (by simp [SecD.objs]) b.sec ?_ e
    rw [List.map_flatMap, List.mem_flatMap]
    exact ⟨b, hb, by simp [SecD.objs]⟩

theorem kvs_nodup {m : Mem} {base : Addr → Option Obj} {d : DocD} (o : OwnM m base d.objs) {t : SecD} (ht : t ∈ d.secs) :
    t.kvs.Pairwise fun a b => a.kv ≠ b.kv := by
  obtain ⟨u, w, e⟩ := List.append_of_mem ht
  have h := (o.perm (objs_split d e)).nodup
  rw [List.map_append, List.nodup_append] at h
  have h := h.1
  unfold SecD.objs at h
  simp only [List.map_cons, List.nodup_cons] at h
  have h := h.2.2.2
  revert h
  generalize t.kvs = l
  intro h
  induction l with
  | nil => exact List.Pairwise.nil
  | cons k l ih =>
    rw [List.flatMap_cons, List.map_append, List.nodup_append] at h
    refine List.pairwise_cons.mpr ⟨?_, ih h.2.1⟩
    intro b hb e
    refine h.2.2 k.kv (by simp [KvD.objs]) b.kv ?_ e
    rw [List.map_flatMap, List.mem_flatMap]
    exact ⟨b, hb, by simp [KvD.objs]⟩

/-! ### Searching -/

/-- The cached pointer is NULL or points to a section. -/
def LastOk (d : DocD) : Prop := d.last = 0 ∨ ∃ t ∈ d.secs, t.sec = d.last

/-- The section a call with this name finds. -/
def target (d : DocD) (s : List Byte) : Option SecD :=
  match (d.secs.find? fun t => t.sec == d.last).filter fun t => ciEq s t.name with
  | some t => some t
  | none => d.secs.find? fun t => ciEq s t.name

theorem target_mem {d : DocD} {s : List Byte} {t : SecD} (h : target d s = some t) : t ∈ d.secs := by
  unfold target at h
  split at h
  · rename_i x hx
    injection h with h
    subst h
    rw [Option.filter_eq_some_iff] at hx
    exact List.mem_of_find?_eq_some hx.1
  · exact List.mem_of_find?_eq_some h

theorem findSec_own {m : Mem} {s : List Byte} : ∀ {l : List SecD},
    (∀ t ∈ l, m.heap t.node = some .node ∧ m.heap t.sec = some (.sec t.name t.lst)) →
    findSec m s (l.map fun t => (t.node, t.sec)) = some ((l.find? fun t => ciEq s t.name).map (·.sec))
  | [], _ => rfl
  | t :: l, h => by
    obtain ⟨h1, h2⟩ := h t (by simp)
    have ih := findSec_own (m := m) (s := s) (l := l) (fun t ht => h t (by simp [ht]))
    rw [List.map_cons]
    unfold findSec
    simp only
    rw [if_pos h1]
    unfold getSec
    rw [h2, List.find?_cons]
    simp only [Option.bind_some]
    cases ciEq s t.name with
    | true => rfl
    | false => exact ih

theorem findKv_own {m : Mem} {s : List Byte} : ∀ {l : List KvD},
    (∀ t ∈ l, m.heap t.node = some .node ∧ m.heap t.kv = some (.kv t.key t.value)) →
    findKv m s (l.map fun t => (t.node, t.kv)) = some ((l.find? fun t => ciEq s t.key).map (·.kv))
  | [], _ => rfl
  | t :: l, h => by
    obtain ⟨h1, h2⟩ := h t (by simp)
    have ih := findKv_own (m := m) (s := s) (l := l) (fun t ht => h t (by simp [ht]))
    rw [List.map_cons]
    unfold findKv
    simp only
    rw [if_pos h1]
    unfold getKv
    rw [h2, List.find?_cons]
    simp only [Option.bind_some]
    cases ciEq s t.key with
    | true => rfl
    | false => exact ih

theorem find_sec {l : List SecD} (h : l.Pairwise fun a b => a.sec ≠ b.sec) {t : SecD} (ht : t ∈ l) :
    (l.find? fun s => s.sec == t.sec) = some t := by
  induction l with
  | nil => simp at ht
  | cons x l ih =>
    rw [List.pairwise_cons] at h
    rw [List.find?_cons]
    rcases List.mem_cons.mp ht with rfl | ht
    · simp
    · have hb : (x.sec == t.sec) = false := by simpa using h.1 t ht
      rw [hb]; exact ih h.2 ht

theorem search_own {m : Mem} {base : Addr → Option Obj} {d : DocD} (o : OwnM m base d.objs) (hl : LastOk d) {s : List Byte}
    (hs : s ≠ []) : search m d.p s = some ((target d s).map (·.sec)) := by
  unfold search
  rw [if_neg hs, getParser_own o (mem_parser d), Option.bind_some]
  simp only
  have hw : ((getList m d.root).bind fun ns => findSec m s ns) = some ((d.secs.find? fun t => ciEq s t.name).map (·.sec)) := by
    rw [getList_own o (mem_root d), Option.bind_some]
    exact findSec_own fun t ht => ⟨o.at (mem_node ht), o.at (mem_info ht)⟩
  rw [hw]
  unfold target
  rcases hl with hl | ⟨t, ht, hl⟩
  · rw [if_pos hl]
    have : (d.secs.find? fun t => t.sec == d.last) = none := by
      rw [List.find?_eq_none]
      intro t ht
      have := o.nz _ (mem_info ht)
      simp only at this
      simp [hl, this]
    rw [this]; rfl
  · have hnz : d.last ≠ 0 := by rw [← hl]; exact o.nz _ (mem_info ht)
    rw [if_neg hnz]
    have hf := find_sec (secs_nodup o) ht
    rw [hl] at hf
    rw [hf]
    have := getSec_own o (mem_info ht)
    rw [hl] at this
    rw [this, Option.bind_some]
    simp only [Option.filter]
    by_cases hc : ciEq s t.name = true
    · rw [if_pos hc, if_pos hc]; simp [hl]
    · rw [if_neg hc, if_neg hc]

end Verif.IniHeap
