import Verif.IniHeap.Model
/-!
# Blocks owned by the parser
-/
namespace Verif.IniHeap

/-- The allocator returns addresses of free cells. -/
def Sound (pick : Policy) : Prop := ∀ h n a, pick h n = some a → a ≠ 0 ∧ h a = none

/-- The heap is `base` and the objects `objs`. -/
structure Own (h base : Addr → Option Obj) (objs : List (Addr × Obj)) : Prop where
  nodup : (objs.map (·.1)).Nodup
  here : ∀ x ∈ objs, h x.1 = some x.2
  nz : ∀ x ∈ objs, x.1 ≠ 0
  fresh : ∀ x ∈ objs, base x.1 = none
  rest : ∀ a, a ∉ objs.map (·.1) → h a = base a

theorem Own.start (h : Addr → Option Obj) : Own h h [] :=
  ⟨by simp, by simp, by simp, by simp, fun _ _ => rfl⟩

theorem Own.perm {h base : Addr → Option Obj} {xs ys : List (Addr × Obj)} (o : Own h base xs) (p : xs.Perm ys) :
    Own h base ys := by
  refine ⟨(p.map _).nodup_iff.mp o.nodup, fun x hx => o.here x (p.mem_iff.mpr hx), fun x hx => o.nz x (p.mem_iff.mpr hx),
    fun x hx => o.fresh x (p.mem_iff.mpr hx), fun a ha => o.rest a (fun hm => ha ((p.map _).mem_iff.mp hm))⟩

theorem Own.at {h base : Addr → Option Obj} {xs : List (Addr × Obj)} (o : Own h base xs) {a : Addr} {b : Obj}
    (hm : (a, b) ∈ xs) : h a = some b := o.here (a, b) hm

theorem Own.inj {h base : Addr → Option Obj} {xs : List (Addr × Obj)} (o : Own h base xs) {a : Addr} {b c : Obj}
    (hb : (a, b) ∈ xs) (hc : (a, c) ∈ xs) : b = c := by
  have := (o.at hb).symm.trans (o.at hc)
  injection this

/-- A new block. -/
theorem Own.alloc {h base : Addr → Option Obj} {xs : List (Addr × Obj)} (o : Own h base xs) {a : Addr} (b : Obj)
    (h0 : a ≠ 0) (ha : h a = none) : Own (fun x => if x = a then some b else h x) base ((a, b) :: xs) := by
  have hn : a ∉ xs.map (·.1) := by
    intro hm
    obtain ⟨x, hx, e⟩ := List.mem_map.mp hm
    have := o.here x hx
    rw [e, ha] at this
    cases this
  refine ⟨?_, ?_, ?_, ?_, ?_⟩
  · rw [List.map_cons, List.nodup_cons]; exact ⟨hn, o.nodup⟩
  · intro x hx
    rw [List.mem_cons] at hx
    rcases hx with rfl | hx
    · exact if_pos rfl
    · rw [if_neg (fun (e : x.1 = a) => hn (List.mem_map.mpr ⟨x, hx, e⟩))]; exact o.here x hx
  · intro x hx
    rw [List.mem_cons] at hx
    rcases hx with rfl | hx
    · exact h0
    · exact o.nz x hx
  · intro x hx
    rw [List.mem_cons] at hx
    rcases hx with rfl | hx
    · rw [← o.rest a hn]; exact ha
    · exact o.fresh x hx
  · intro c hc
    rw [List.map_cons, List.mem_cons, not_or] at hc
    rw [if_neg hc.1]; exact o.rest c hc.2

/-- A block is written. -/
theorem Own.write {h base : Addr → Option Obj} {xs : List (Addr × Obj)} {a : Addr} {b : Obj} (o : Own h base ((a, b) :: xs))
    (c : Obj) : Own (fun x => if x = a then some c else h x) base ((a, c) :: xs) := by
  have hn := o.nodup
  rw [List.map_cons, List.nodup_cons] at hn
  refine ⟨o.nodup, ?_, ?_, ?_, ?_⟩
  · intro x hx
    rw [List.mem_cons] at hx
    rcases hx with rfl | hx
    · exact if_pos rfl
    · rw [if_neg (fun (e : x.1 = a) => hn.1 (List.mem_map.mpr ⟨x, hx, e⟩))]; exact o.here x (by simp [hx])
  · intro x hx
    rw [List.mem_cons] at hx
    rcases hx with rfl | hx
    · exact o.nz (a, b) (by simp)
    · exact o.nz x (by simp [hx])
  · intro x hx
    rw [List.mem_cons] at hx
    rcases hx with rfl | hx
    · exact o.fresh (a, b) (by simp)
    · exact o.fresh x (by simp [hx])
  · intro d hd
    have hd' : d ∉ ((a, b) :: xs).map (·.1) := hd
    rw [List.map_cons, List.mem_cons, not_or] at hd
    rw [if_neg hd.1]; exact o.rest d hd'

/-- A block is freed. -/
theorem Own.drop {h base : Addr → Option Obj} {xs : List (Addr × Obj)} {a : Addr} {b : Obj} (o : Own h base ((a, b) :: xs)) :
    Own (fun x => if x = a then none else h x) base xs := by
  have hn := o.nodup
  rw [List.map_cons, List.nodup_cons] at hn
  refine ⟨hn.2, ?_, fun x hx => o.nz x (by simp [hx]), fun x hx => o.fresh x (by simp [hx]), ?_⟩
  · intro x hx
    rw [if_neg (fun (e : x.1 = a) => hn.1 (List.mem_map.mpr ⟨x, hx, e⟩))]; exact o.here x (by simp [hx])
  · intro d hd
    by_cases hda : d = a
    · rw [if_pos hda, hda]; exact (o.fresh (a, b) (by simp)).symm
    · rw [if_neg hda]
      exact o.rest d (by rw [List.map_cons, List.mem_cons, not_or]; exact ⟨hda, hd⟩)

/-! ### The primitives -/

/-- The memory `m` is `base` and `objs`. -/
abbrev OwnM (m : Mem) (base : Addr → Option Obj) (objs : List (Addr × Obj)) : Prop := Own m.heap base objs

theorem alloc_own {pick : Policy} (hp : Sound pick) {m : Mem} {base : Addr → Option Obj} {xs : List (Addr × Obj)}
    (o : OwnM m base xs) (b : Obj) :
    (∃ m', alloc pick m b = (m', none) ∧ OwnM m' base xs ∧ m'.asked = m.asked + 1 ∧ pick m.heap m.asked = none) ∨
    (∃ m' a, alloc pick m b = (m', some a) ∧ OwnM m' base ((a, b) :: xs) ∧ m'.asked = m.asked + 1) := by
  unfold alloc
  cases h : pick m.heap m.asked with
  | none => exact Or.inl ⟨_, rfl, o, rfl, rfl⟩
  | some a =>
    obtain ⟨h1, h2⟩ := hp _ _ _ h
    exact Or.inr ⟨_, a, rfl, o.alloc b h1 h2, rfl⟩

theorem free_own {m : Mem} {base : Addr → Option Obj} {xs : List (Addr × Obj)} {a : Addr} {b : Obj}
    (o : OwnM m base ((a, b) :: xs)) : ∃ m', free m a = some m' ∧ OwnM m' base xs := by
  unfold free
  rw [o.at (a := a) (b := b) (by simp)]
  exact ⟨_, rfl, o.drop⟩

theorem myFree_own {m : Mem} {base : Addr → Option Obj} {xs : List (Addr × Obj)} {a : Addr} {b : Obj}
    (o : OwnM m base ((a, b) :: xs)) : ∃ m', myFree m a = some m' ∧ OwnM m' base xs := by
  unfold myFree
  rw [if_neg (o.nz (a, b) (by simp))]
  exact free_own o

theorem store_own {m : Mem} {base : Addr → Option Obj} {xs : List (Addr × Obj)} {a : Addr} {b : Obj}
    (o : OwnM m base ((a, b) :: xs)) (c : Obj) : ∃ m', store m a c = some m' ∧ OwnM m' base ((a, c) :: xs) := by
  unfold store
  rw [o.at (a := a) (b := b) (by simp)]
  exact ⟨_, rfl, o.write c⟩

theorem getList_own {m : Mem} {base : Addr → Option Obj} {xs : List (Addr × Obj)} (o : OwnM m base xs) {l : Addr}
    {ns : List (Addr × Addr)} (h : (l, Obj.list ns) ∈ xs) : getList m l = some ns := by
  unfold getList; rw [o.at h]

theorem getSec_own {m : Mem} {base : Addr → Option Obj} {xs : List (Addr × Obj)} (o : OwnM m base xs) {a l : Addr}
    {n : List Byte} (h : (a, Obj.sec n l) ∈ xs) : getSec m a = some (n, l) := by
  unfold getSec; rw [o.at h]

theorem getKv_own {m : Mem} {base : Addr → Option Obj} {xs : List (Addr × Obj)} (o : OwnM m base xs) {a : Addr}
    {k v : List Byte} (h : (a, Obj.kv k v) ∈ xs) : getKv m a = some (k, v) := by
  unfold getKv; rw [o.at h]

theorem getParser_own {m : Mem} {base : Addr → Option Obj} {xs : List (Addr × Obj)} (o : OwnM m base xs) {p r l : Addr}
    {n : Nat} (h : (p, Obj.parser r l n) ∈ xs) : getParser m p = some (r, l, n) := by
  unfold getParser; rw [o.at h]

/-- `list_append`. -/
theorem listAppend_own {pick : Policy} (hp : Sound pick) {m : Mem} {base : Addr → Option Obj} {xs : List (Addr × Obj)}
    {l : Addr} {ns : List (Addr × Addr)} (o : OwnM m base ((l, Obj.list ns) :: xs)) (d : Addr) :
    (∃ m', listAppend pick m l d = some (m', false) ∧ OwnM m' base ((l, Obj.list ns) :: xs) ∧
      pick m.heap m.asked = none ∧ m'.asked = m.asked + 1) ∨
    (∃ m' n, listAppend pick m l d = some (m', true) ∧ OwnM m' base ((l, Obj.list (ns ++ [(n, d)])) :: (n, .node) :: xs) ∧
      m'.asked = m.asked + 1) := by
  unfold listAppend
  rw [getList_own o (l := l) (ns := ns) (by simp)]
  simp only [Option.bind_some]
  rcases alloc_own hp o .node with ⟨m1, e1, o1, e2, e3⟩ | ⟨m1, n, e1, o1, e2⟩
  · rw [e1]; exact Or.inl ⟨m1, rfl, o1, e3, e2⟩
  · rw [e1]
    simp only
    obtain ⟨m2, e3, o2⟩ := store_own (o1.perm (List.Perm.swap _ _ _)) (.list (ns ++ [(n, d)]))
    refine Or.inr ⟨m2, n, by rw [e3]; rfl, o2, ?_⟩
    unfold store at e3
    rw [Option.map_eq_some_iff] at e3
    obtain ⟨_, _, rfl⟩ := e3
    exact e2

/-- `list_free_node_`. -/
theorem freeNode_own {m : Mem} {base : Addr → Option Obj} {xs : List (Addr × Obj)} {n d : Addr} {b : Obj}
    (o : OwnM m base ((n, .node) :: (d, b) :: xs)) : ∃ m', freeNode m (n, d) = some m' ∧ OwnM m' base xs := by
  unfold freeNode
  simp only
  rw [if_pos (o.at (by simp))]
  obtain ⟨m1, e1, o1⟩ := myFree_own (o.perm (List.Perm.swap _ _ _))
  rw [e1, Option.bind_some]
  exact free_own o1

theorem freeNodes_own {base : Addr → Option Obj} {xs : List (Addr × Obj)} : ∀ {ts : List (Addr × Addr × Obj)} {m : Mem},
    OwnM m base (ts.flatMap (fun t => [(t.1, .node), (t.2.1, t.2.2)]) ++ xs) →
    ∃ m', freeNodes m (ts.map fun t => (t.1, t.2.1)) = some m' ∧ OwnM m' base xs
  | [], m, o => ⟨m, rfl, o⟩
  | t :: ts, m, o => by
    obtain ⟨m1, e1, o1⟩ := freeNode_own (m := m) (n := t.1) (d := t.2.1) (b := t.2.2) (by simpa using o)
    obtain ⟨m2, e2, o2⟩ := freeNodes_own o1
    refine ⟨m2, ?_, o2⟩
    show (freeNode m (t.1, t.2.1)).bind _ = _
    rw [e1]
    exact e2

/-- `list_free` of a list whose nodes and data are these. -/
theorem listFree_own {m : Mem} {base : Addr → Option Obj} {xs : List (Addr × Obj)} {l : Addr} {ts : List (Addr × Addr × Obj)}
    (o : OwnM m base ((l, .list (ts.map fun t => (t.1, t.2.1))) ::
      (ts.flatMap (fun t => [(t.1, .node), (t.2.1, t.2.2)]) ++ xs))) :
    ∃ m', listFree m l = some m' ∧ OwnM m' base xs := by
  unfold listFree
  rw [if_neg (o.nz (l, _) (List.mem_cons_self ..)), getList_own o (l := l) (List.mem_cons_self ..), Option.bind_some]
  obtain ⟨m1, e1, o1⟩ := freeNodes_own (ts := ts) (xs := (l, .list (ts.map fun t => (t.1, t.2.1))) :: xs)
    (o.perm List.perm_middle.symm)
  rw [e1, Option.bind_some]
  obtain ⟨m2, e2, o2⟩ := store_own o1 (.list [])
  rw [e2, Option.bind_some]
  exact free_own o2

end Verif.IniHeap
