import Verif.IniHeap.Shape
/-!
# The calls on the heap
-/
namespace Verif.IniHeap
open Verif.IniParser (ciEq Code KV Sec Parser findKey)

/-- Every request for memory is granted as long as the heap is `base` and finitely many blocks. -/
def NoFail (pick : Policy) (base : Addr → Option Obj) : Prop := ∀ h n xs, Own h base xs → pick h n ≠ none

def KvD.abs (k : KvD) : KV := ⟨k.key, k.value⟩
def SecD.abs (t : SecD) : Sec := ⟨t.id, t.name, t.kvs.map KvD.abs⟩

theorem find_split {α : Type} (f : α → Bool) : ∀ (l : List α), (l.find? f = none ∧ l.findIdx? f = none) ∨
    ∃ a k b, l = a ++ k :: b ∧ l.find? f = some k ∧ l.findIdx? f = some a.length
  | [] => Or.inl ⟨rfl, rfl⟩
  | x :: l => by
    by_cases h : f x = true
    · exact Or.inr ⟨[], x, l, rfl, by simp [h], by simp [List.findIdx?_cons, h]⟩
    · rcases find_split f l with ⟨h1, h2⟩ | ⟨a, k, b, e, h1, h2⟩
      · exact Or.inl ⟨by simp [h, h1], by simp [List.findIdx?_cons, h, h2]⟩
      · exact Or.inr ⟨x :: a, k, b, by rw [e]; rfl, by simp [h, h1], by simp [List.findIdx?_cons, h, h2]⟩

theorem findKey_abs (kvs : List KvD) (key : List Byte) :
    findKey (kvs.map KvD.abs) key = kvs.findIdx? fun k => ciEq key k.key := by
  unfold findKey
  rw [List.findIdx?_map]
  rfl

theorem modify_mid {α : Type} (f : α → α) (k : α) (b : List α) : ∀ (a : List α),
    (a ++ k :: b).modify a.length f = a ++ f k :: b
  | [] => rfl
  | x :: a => by
    show (x :: (a ++ k :: b)).modify (a.length + 1) f = _
    rw [List.modify_succ_cons, modify_mid f k b a]; rfl

theorem erase_mid {α : Type} (k : α) (b : List α) : ∀ (a : List α), (a ++ k :: b).eraseIdx a.length = a ++ b
  | [] => rfl
  | x :: a => by
    show (x :: (a ++ k :: b)).eraseIdx (a.length + 1) = _
    rw [List.eraseIdx_cons_succ, erase_mid k b a]; rfl

/-- What the second half of a put does to the entries of the section. -/
def entryOf (kvs : List KV) (key value : List Byte) (kv kvNode : Bool) : List KV × Code :=
  match findKey kvs key with
  | some i => (kvs.modify i fun kv => { kv with value := value.take 255 }, .succeed)
  | none =>
    if !kv then (kvs, .noMemory)
    else if kvNode then (kvs ++ [{ key := key.take 63, value := value.take 255 }], .succeed)
    else (kvs, .failed)

/-- A document with the entries of one section replaced. -/
abbrev DocD.upd (d : DocD) (u : List SecD) (t : SecD) (kvs : List KvD) (w : List SecD) : DocD :=
  { d with secs := u ++ { t with kvs := kvs } :: w }

theorem upd_same {d : DocD} {u w : List SecD} {t : SecD} (h : d.secs = u ++ t :: w) : d.upd u t t.kvs w = d := by
  cases d
  cases t
  simp only at h
  simp only [DocD.upd, h]

theorem DocD.upd_nodes {d : DocD} {u w : List SecD} {t : SecD} (h : d.secs = u ++ t :: w) (kvs : List KvD) :
    ((d.upd u t kvs w).secs.map fun s => (s.node, s.sec)) = d.secs.map fun s => (s.node, s.sec) := by
  rw [h]; simp

theorem putEntry_own {pick : Policy} (hp : Sound pick) {m : Mem} {base : Addr → Option Obj} {d : DocD}
    (o : OwnM m base d.objs) {u w : List SecD} {t : SecD} (hs : d.secs = u ++ t :: w) (key value : List Byte) :
    ∃ m' c kvs' kv kvNode, putEntry pick m t.sec key value = some (m', c) ∧ OwnM m' base (d.upd u t kvs' w).objs ∧
      (kvs'.map KvD.abs, c) = entryOf (t.kvs.map KvD.abs) key value kv kvNode ∧
      (NoFail pick base → kv = true ∧ kvNode = true) := by
  have ht : t ∈ d.secs := by rw [hs]; simp
  unfold putEntry
  rw [getSec_own o (mem_info ht), Option.bind_some]
  simp only
  rw [getList_own o (mem_lst ht), Option.bind_some,
    findKv_own fun k hk => ⟨o.at (mem_kvn ht hk), o.at (mem_kvv ht hk)⟩, Option.bind_some]
  have o1 := o.perm (objs_split d hs)
  rcases find_split (fun k : KvD => ciEq key k.key) t.kvs with ⟨h1, h2⟩ | ⟨a, k, b, e, h1, h2⟩
  · rw [h1]
    simp only [Option.map_none]
    have hfk : findKey (t.kvs.map KvD.abs) key = none := by rw [findKey_abs]; exact h2
    rcases alloc_own hp o (.kv (key.take 63) (value.take 255)) with ⟨m1, e1, o2, -, hn⟩ | ⟨m1, k, e1, o2, -⟩
    · rw [e1]
      refine ⟨m1, .noMemory, t.kvs, false, false, rfl, by rw [upd_same hs]; exact o2, ?_, fun h => absurd hn (h _ _ _ o)⟩
      unfold entryOf; rw [hfk]; rfl
    · rw [e1]
      simp only
      have o3 : OwnM m1 base ((t.lst, .list (t.kvs.map fun k => (k.node, k.kv))) ::
          ((k, .kv (key.take 63) (value.take 255)) :: (t.node, .node) :: (t.sec, .sec t.name t.lst) ::
            (t.kvs.flatMap KvD.objs ++ d.frame (d.secs.map fun s => (s.node, s.sec)) (u ++ w)))) := by
        refine o2.perm ((List.Perm.cons _ (objs_split d hs)).trans ?_)
        unfold SecD.objs
        perm_count
      rcases listAppend_own hp o3 k with ⟨m2, e2, o4, hn, -⟩ | ⟨m2, n, e2, o4, -⟩
      · rw [e2, Option.bind_some]
        simp only [Bool.false_eq_true, if_false]
        obtain ⟨m3, e3, o5⟩ := myFree_own (o4.perm (List.Perm.swap _ _ _))
        rw [e3]
        refine ⟨m3, .failed, t.kvs, true, false, rfl, ?_, ?_, fun h => absurd hn (h _ _ _ o3)⟩
        · rw [upd_same hs]
          refine o5.perm (List.Perm.trans ?_ (objs_split d hs).symm)
          unfold SecD.objs
          perm_count
        · unfold entryOf; rw [hfk]; rfl
      · rw [e2, Option.bind_some]
        simp only [if_true]
        refine ⟨m2, .succeed, t.kvs ++ [⟨n, k, key.take 63, value.take 255⟩], true, true, rfl, ?_, ?_, fun _ => ⟨rfl, rfl⟩⟩
        · refine o4.perm (List.Perm.trans ?_ (objs_split (d.upd u t _ w) rfl).symm)
          rw [DocD.upd_nodes hs]
          unfold SecD.objs KvD.objs DocD.frame
          perm_count
        · unfold entryOf; rw [hfk]; simp [KvD.abs]
  · rw [h1]
    simp only [Option.map_some]
    have hk : k ∈ t.kvs := by rw [e]; simp
    rw [getKv_own o (mem_kvv ht hk), Option.bind_some]
    have hfk : findKey (t.kvs.map KvD.abs) key = some a.length := by rw [findKey_abs]; exact h2
    have o2 : OwnM m base ((k.kv, .kv k.key k.value) :: (k.node, .node) :: (((t.node, .node) :: (t.sec, .sec t.name t.lst) ::
        (t.lst, .list (t.kvs.map fun k => (k.node, k.kv))) :: (a ++ b).flatMap KvD.objs) ++
          d.frame (d.secs.map fun s => (s.node, s.sec)) (u ++ w))) := by
      refine o1.perm (((t.split e).append_right _).trans ?_)
      unfold KvD.objs
      perm_count
    obtain ⟨m1, e1, o3⟩ := store_own o2 (.kv k.key (value.take 255))
    simp only
    rw [e1]
    refine ⟨m1, .succeed, a ++ { k with value := value.take 255 } :: b, true, true, rfl, ?_, ?_, fun _ => ⟨rfl, rfl⟩⟩
    · refine o3.perm (List.Perm.trans ?_ (objs_split (d.upd u t _ w) rfl).symm)
      rw [DocD.upd_nodes hs]
      refine List.Perm.trans ?_ ((SecD.split { t with kvs := a ++ { k with value := value.take 255 } :: b } rfl).symm.append_right _)
      rw [show ((({ t with kvs := a ++ { k with value := value.take 255 } :: b } : SecD).kvs).map fun k => (k.node, k.kv)) =
        t.kvs.map fun k => (k.node, k.kv) by rw [e]; simp]
      unfold KvD.objs DocD.frame
      perm_count
    · unfold entryOf
      rw [hfk]
      simp only
      rw [e, ← List.length_map (f := KvD.abs) (as := a)]
      simp only [List.map_append, List.map_cons]
      rw [modify_mid]
      rfl

/-- A new section. -/
theorem addSection_own {pick : Policy} (hp : Sound pick) {m : Mem} {base : Addr → Option Obj} {d : DocD}
    (o : OwnM m base d.objs) (s : List Byte) (id : Nat) :
    (∃ m' lk, addSection pick m d.p s = some (m', none) ∧ OwnM m' base { d with leaked := lk }.objs ∧ ¬ NoFail pick base ∧
      (lk = d.leaked ∨ ∃ l, lk = l :: d.leaked)) ∨
    (∃ m' x n l, addSection pick m d.p s = some (m', some x) ∧
      OwnM m' base ({ d with
        last := x
        pred := d.pred + (s.length + 6)
        secs := d.secs ++ [⟨id, n, x, l, s.take 63, []⟩] } : DocD).objs) := by
  unfold addSection
  rcases alloc_own hp o (.sec [] 0) with ⟨m1, e1, o1, -, hn⟩ | ⟨m1, x, e1, o1, -⟩
  · rw [e1]
    exact Or.inl ⟨m1, d.leaked, rfl, o1, fun h => h _ _ _ o hn, Or.inl rfl⟩
  rw [e1]
  simp only
  rcases alloc_own hp o1 (.list []) with ⟨m2, e2, o2, -, hn⟩ | ⟨m2, l, e2, o2, -⟩
  · rw [e2]
    simp only
    obtain ⟨m3, e3, o3⟩ := myFree_own o2
    rw [e3]
    exact Or.inl ⟨m3, d.leaked, rfl, o3, fun h => h _ _ _ o1 hn, Or.inl rfl⟩
  rw [e2]
  simp only
  obtain ⟨m3, e3, o3⟩ := store_own (o2.perm (List.Perm.swap _ _ _)) (.sec (s.take 63) l)
  rw [e3, Option.bind_some, getParser_own o3 (List.mem_cons_of_mem _ (List.mem_cons_of_mem _ (mem_parser d))), Option.bind_some]
  simp only
  have o4 : OwnM m3 base ((d.root, .list (d.secs.map fun s => (s.node, s.sec))) :: (x, .sec (s.take 63) l) :: (l, .list []) ::
      (d.p, .parser d.root d.last d.pred) :: (d.secs.flatMap SecD.objs ++ d.leaked.map fun a => (a, Obj.list []))) := by
    refine o3.perm ?_
    unfold DocD.objs
    perm_count
  rcases listAppend_own hp o4 x with ⟨m4, e4, o5, hn, -⟩ | ⟨m4, n, e4, o5, -⟩
  · rw [e4, Option.bind_some]
    simp only [if_true]
    obtain ⟨m5, e5, o6⟩ := myFree_own (o5.perm (List.Perm.swap _ _ _))
    rw [e5]
    refine Or.inl ⟨m5, l :: d.leaked, rfl, ?_, fun h => h _ _ _ o4 hn, Or.inr ⟨l, rfl⟩⟩
    refine o6.perm ?_
    unfold DocD.objs
    perm_count
  · rw [e4, Option.bind_some]
    simp only [Bool.true_eq_false, if_false]
    have o6 : OwnM m4 base ((d.p, .parser d.root d.last d.pred) :: (d.root, .list ((d.secs.map fun s => (s.node, s.sec)) ++ [(n, x)])) ::
        (n, .node) :: (x, .sec (s.take 63) l) :: (l, .list []) :: (d.secs.flatMap SecD.objs ++ d.leaked.map fun a => (a, Obj.list []))) := by
      refine o5.perm ?_
      perm_count
    obtain ⟨m5, e5, o7⟩ := store_own o6 (.parser d.root x (d.pred + (s.length + 6)))
    rw [e5]
    refine Or.inr ⟨m5, x, n, l, rfl, ?_⟩
    refine o7.perm ?_
    unfold DocD.objs SecD.objs
    perm_count

theorem find_kv {l : List KvD} (h : l.Pairwise fun a b => a.kv ≠ b.kv) {a b : List KvD} {k : KvD} (e : l = a ++ k :: b) :
    ((l.map fun k => (k.node, k.kv)).find? fun x => decide (x.2 = k.kv)) = some (k.node, k.kv) ∧
    ((l.map fun k => (k.node, k.kv)).eraseP fun x => decide (x.2 = k.kv)) = (a ++ b).map fun k => (k.node, k.kv) := by
  subst e
  have ha : ∀ x ∈ a, x.kv ≠ k.kv := fun x hx => (List.pairwise_append.mp h).2.2 x hx k (by simp)
  clear h
  induction a with
  | nil => simp
  | cons x a ih =>
    obtain ⟨h1, h2⟩ := ih fun y hy => ha y (by simp [hy])
    have := ha x (by simp)
    simp only [List.cons_append, List.map_cons, List.find?_cons, List.eraseP_cons]
    simp only [this, decide_false, h1, cond_false]
    exact ⟨trivial, by rw [← h2]⟩

theorem find_node {l : List SecD} (h : l.Pairwise fun a b => a.sec ≠ b.sec) {a b : List SecD} {k : SecD} (e : l = a ++ k :: b) :
    ((l.map fun k => (k.node, k.sec)).find? fun x => decide (x.2 = k.sec)) = some (k.node, k.sec) ∧
    ((l.map fun k => (k.node, k.sec)).eraseP fun x => decide (x.2 = k.sec)) = (a ++ b).map fun k => (k.node, k.sec) := by
  subst e
  have ha : ∀ x ∈ a, x.sec ≠ k.sec := fun x hx => (List.pairwise_append.mp h).2.2 x hx k (by simp)
  clear h
  induction a with
  | nil => simp
  | cons x a ih =>
    obtain ⟨h1, h2⟩ := ih fun y hy => ha y (by simp [hy])
    have := ha x (by simp)
    simp only [List.cons_append, List.map_cons, List.find?_cons, List.eraseP_cons]
    simp only [this, decide_false, h1, cond_false]
    exact ⟨trivial, by rw [← h2]⟩

/-- `list_remove`. -/
theorem listRemove_own {m : Mem} {base : Addr → Option Obj} {xs : List (Addr × Obj)} {l : Addr} {ns ns' : List (Addr × Addr)}
    {n a : Addr} {b : Obj} (o : OwnM m base ((n, .node) :: (a, b) :: (l, .list ns) :: xs))
    (hn : ∀ x ∈ ns, m.heap x.1 = some .node) (h1 : (ns.find? fun x => decide (x.2 = a)) = some (n, a))
    (h2 : (ns.eraseP fun x => decide (x.2 = a)) = ns') :
    ∃ m', listRemove m l a = some (m', true) ∧ OwnM m' base ((l, .list ns') :: xs) := by
  unfold listRemove
  rw [getList_own o (l := l) (ns := ns) (by simp), Option.bind_some]
  have : ns.all (fun x => decide (m.heap x.1 = some .node)) = true := by
    rw [List.all_eq_true]; intro x hx; exact decide_eq_true (hn x hx)
  rw [this, if_neg (by simp), h1]
  simp only
  obtain ⟨m1, e1, o1⟩ := freeNode_own o
  rw [e1, Option.bind_some]
  obtain ⟨m2, e2, o2⟩ := store_own o1 (.list ns')
  rw [h2, e2]
  exact ⟨m2, rfl, o2⟩

theorem deleteKey_own {m : Mem} {base : Addr → Option Obj} {d : DocD} (o : OwnM m base d.objs) (hl : LastOk d)
    {s : List Byte} (hne : s ≠ []) {u w : List SecD} {t : SecD} (hs : d.secs = u ++ t :: w) (htg : target d s = some t)
    (key : List Byte) :
    (findKey (t.kvs.map KvD.abs) key = none ∧ deleteKey m d.p s key = some (m, .notFound)) ∨
    ∃ m' a k b, t.kvs = a ++ k :: b ∧ findKey (t.kvs.map KvD.abs) key = some a.length ∧
      deleteKey m d.p s key = some (m', .succeed) ∧ OwnM m' base (d.upd u t (a ++ b) w).objs := by
  have ht : t ∈ d.secs := by rw [hs]; simp
  unfold deleteKey
  rw [search_own o hl hne, htg, Option.bind_some]
  simp only [Option.map_some]
  rw [getSec_own o (mem_info ht), Option.bind_some]
  simp only
  rw [getList_own o (mem_lst ht), Option.bind_some,
    findKv_own fun k hk => ⟨o.at (mem_kvn ht hk), o.at (mem_kvv ht hk)⟩, Option.bind_some]
  rcases find_split (fun k : KvD => ciEq key k.key) t.kvs with ⟨h1, h2⟩ | ⟨a, k, b, e, h1, h2⟩
  · rw [h1]
    exact Or.inl ⟨by rw [findKey_abs]; exact h2, rfl⟩
  · rw [h1]
    simp only [Option.map_some]
    have hf := find_kv (kvs_nodup o ht) e
    have o1 : OwnM m base ((k.node, .node) :: (k.kv, .kv k.key k.value) :: (t.lst, .list (t.kvs.map fun k => (k.node, k.kv))) ::
        ((t.node, .node) :: (t.sec, .sec t.name t.lst) :: ((a ++ b).flatMap KvD.objs ++
          d.frame (d.secs.map fun s => (s.node, s.sec)) (u ++ w)))) := by
      refine o.perm ((objs_split d hs).trans (((t.split e).append_right _).trans ?_))
      unfold KvD.objs
      perm_count
    obtain ⟨m1, e1, o2⟩ := listRemove_own o1 (fun x hx => by
      obtain ⟨y, hy, rfl⟩ := List.mem_map.mp hx
      exact o.at (mem_kvn ht hy)) hf.1 hf.2
    rw [e1]
    refine Or.inr ⟨m1, a, k, b, e, by rw [findKey_abs]; exact h2, rfl, ?_⟩
    refine o2.perm (List.Perm.trans ?_ (objs_split (d.upd u t _ w) rfl).symm)
    rw [DocD.upd_nodes hs]
    unfold SecD.objs DocD.frame
    perm_count

/-- The list of a section is freed. -/
theorem freeSecList_own {m : Mem} {base : Addr → Option Obj} {xs : List (Addr × Obj)} {l : Addr} {kvs : List KvD}
    (o : OwnM m base ((l, .list (kvs.map fun k => (k.node, k.kv))) :: (kvs.flatMap KvD.objs ++ xs))) :
    ∃ m', listFree m l = some m' ∧ OwnM m' base xs := by
  refine listFree_own (ts := kvs.map fun k => (k.node, k.kv, Obj.kv k.key k.value)) ?_
  rw [List.map_map, List.flatMap_map]
  exact o

theorem deleteSection_own {m : Mem} {base : Addr → Option Obj} {d : DocD} (o : OwnM m base d.objs) (hl : LastOk d)
    {s : List Byte} (hne : s ≠ []) {u w : List SecD} {t : SecD} (hs : d.secs = u ++ t :: w) (htg : target d s = some t) :
    ∃ m', deleteSection m d.p s = some (m', .succeed) ∧ OwnM m' base { d with secs := u ++ w }.objs := by
  have ht : t ∈ d.secs := by rw [hs]; simp
  unfold deleteSection
  rw [search_own o hl hne, htg, Option.bind_some]
  simp only [Option.map_some]
  rw [getSec_own o (mem_info ht), Option.bind_some]
  simp only
  have o1 : OwnM m base ((t.lst, .list (t.kvs.map fun k => (k.node, k.kv))) :: (t.kvs.flatMap KvD.objs ++
      ((t.node, .node) :: (t.sec, .sec t.name t.lst) :: d.frame (d.secs.map fun s => (s.node, s.sec)) (u ++ w)))) := by
    refine o.perm ((objs_split d hs).trans ?_)
    unfold SecD.objs
    perm_count
  obtain ⟨m1, e1, o2⟩ := freeSecList_own o1
  rw [e1, Option.bind_some, getParser_own o2 (p := d.p) (r := d.root) (l := d.last) (n := d.pred) (by simp [DocD.frame]),
    Option.bind_some]
  simp only
  have hf := find_node (secs_nodup o) hs
  have o3 : OwnM m1 base ((t.node, .node) :: (t.sec, .sec t.name t.lst) :: (d.root, .list (d.secs.map fun s => (s.node, s.sec))) ::
      ((d.p, .parser d.root d.last d.pred) :: ((u ++ w).flatMap SecD.objs ++ d.leaked.map fun a => (a, Obj.list [])))) := by
    refine o2.perm ?_
    unfold DocD.frame
    perm_count
  obtain ⟨m2, e2, o4⟩ := listRemove_own o3 (fun x hx => by
    obtain ⟨y, hy, rfl⟩ := List.mem_map.mp hx
    rw [hs] at hy
    simp only [List.mem_append, List.mem_cons] at hy
    rcases hy with hy | rfl | hy
    · exact o3.at (a := y.node) (b := Obj.node) (by
        simp only [List.mem_cons, List.mem_append, List.mem_flatMap]
        exact Or.inr (Or.inr (Or.inr (Or.inr (Or.inl ⟨y, Or.inl hy, by simp [SecD.objs]⟩)))))
    · exact o3.at (by simp)
    · exact o3.at (a := y.node) (b := Obj.node) (by
        simp only [List.mem_cons, List.mem_append, List.mem_flatMap]
        exact Or.inr (Or.inr (Or.inr (Or.inr (Or.inl ⟨y, Or.inr hy, by simp [SecD.objs]⟩)))))) hf.1 hf.2
  rw [e2]
  refine ⟨m2, rfl, o4.perm ?_⟩
  unfold DocD.objs
  perm_count

theorem lookup_own {m : Mem} {base : Addr → Option Obj} {d : DocD} (o : OwnM m base d.objs) (hl : LastOk d)
    {s : List Byte} (hne : s ≠ []) (key : List Byte) :
    lookup m d.p s key = some ((target d s).bind fun t => (t.kvs.find? fun k => ciEq key k.key).map (·.value)) := by
  unfold lookup
  rw [search_own o hl hne, Option.bind_some]
  cases htg : target d s with
  | none => rfl
  | some t =>
    have ht := target_mem htg
    simp only [Option.map_some]
    rw [getSec_own o (mem_info ht), Option.bind_some]
    simp only
    rw [getList_own o (mem_lst ht), Option.bind_some,
      findKv_own fun k hk => ⟨o.at (mem_kvn ht hk), o.at (mem_kvv ht hk)⟩, Option.bind_some]
    cases hk : t.kvs.find? fun k => ciEq key k.key with
    | none => simp [hk]
    | some k =>
      have hk' := List.mem_of_find?_eq_some hk
      simp only [Option.map_some, Option.bind_some, hk]
      rw [getKv_own o (mem_kvv ht hk')]
      rfl

theorem readKvs_own {m : Mem} : ∀ {l : List KvD},
    (∀ t ∈ l, m.heap t.node = some .node ∧ m.heap t.kv = some (.kv t.key t.value)) →
    readKvs m (l.map fun t => (t.node, t.kv)) = some (l.map fun t => (t.key, t.value))
  | [], _ => rfl
  | t :: l, h => by
    obtain ⟨h1, h2⟩ := h t (by simp)
    have ih := readKvs_own (m := m) (l := l) (fun t ht => h t (by simp [ht]))
    rw [List.map_cons]
    unfold readKvs
    simp only
    rw [if_pos h1]
    unfold getKv
    rw [h2]
    simp only [Option.bind_some]
    rw [ih]; rfl

theorem readSecs_own {m : Mem} : ∀ {l : List SecD},
    (∀ t ∈ l, ∀ x ∈ t.objs, m.heap x.1 = some x.2) →
    readSecs m (l.map fun t => (t.node, t.sec)) = some (l.map fun t => (t.name, t.kvs.map fun k => (k.key, k.value)))
  | [], _ => rfl
  | t :: l, h => by
    have h0 := h t (by simp)
    have ih := readSecs_own (m := m) (l := l) (fun t ht => h t (by simp [ht]))
    rw [List.map_cons]
    unfold readSecs
    simp only
    rw [if_pos (h0 (t.node, .node) (by simp [SecD.objs]))]
    unfold getSec getList
    rw [h0 (t.sec, .sec t.name t.lst) (by simp [SecD.objs])]
    simp only [Option.bind_some]
    rw [h0 (t.lst, .list (t.kvs.map fun k => (k.node, k.kv))) (by simp [SecD.objs])]
    simp only [Option.bind_some]
    rw [readKvs_own (l := t.kvs) (fun k hk => ⟨h0 (k.node, .node) (mem_kv hk (by simp [KvD.objs])),
      h0 (k.kv, .kv k.key k.value) (mem_kv hk (by simp [KvD.objs]))⟩), Option.bind_some, ih]
    rfl

theorem readAll_own {m : Mem} {base : Addr → Option Obj} {d : DocD} (o : OwnM m base d.objs) :
    readAll m d.p = some (d.secs.map fun t => (t.name, t.kvs.map fun k => (k.key, k.value))) := by
  unfold readAll
  rw [getParser_own o (mem_parser d), Option.bind_some]
  simp only
  rw [getList_own o (mem_root d), Option.bind_some]
  exact readSecs_own fun t ht x hx => o.here x (mem_sec ht hx)

theorem freeLists_own {base : Addr → Option Obj} {xs : List (Addr × Obj)} : ∀ {l : List SecD} {m : Mem},
    OwnM m base (l.flatMap SecD.objs ++ xs) → ∃ m', freeLists m (l.map fun t => (t.node, t.sec)) = some m' ∧
      OwnM m' base (l.flatMap (fun t => [(t.node, .node), (t.sec, .sec t.name t.lst)]) ++ xs)
  | [], m, o => ⟨m, rfl, o⟩
  | t :: l, m, o => by
    rw [List.map_cons]
    unfold freeLists
    simp only
    rw [if_pos (o.at (b := Obj.node) (by simp [SecD.objs])),
      if_neg (o.nz (t.sec, .sec t.name t.lst) (by simp [SecD.objs])),
      getSec_own o (a := t.sec) (n := t.name) (l := t.lst) (by simp [SecD.objs]), Option.bind_some]
    simp only
    have o1 : OwnM m base ((t.lst, .list (t.kvs.map fun k => (k.node, k.kv))) :: (t.kvs.flatMap KvD.objs ++
        (l.flatMap SecD.objs ++ ((t.node, .node) :: (t.sec, .sec t.name t.lst) :: xs)))) := by
      refine o.perm ?_
      rw [List.flatMap_cons, show t.objs = (t.node, .node) :: (t.sec, .sec t.name t.lst) ::
        (t.lst, .list (t.kvs.map fun k => (k.node, k.kv))) :: t.kvs.flatMap KvD.objs from rfl]
      perm_count
    obtain ⟨m1, e1, o2⟩ := freeSecList_own o1
    rw [e1, Option.bind_some]
    obtain ⟨m2, e2, o3⟩ := freeLists_own o2
    refine ⟨m2, e2, o3.perm ?_⟩
    perm_count

/-- `ini_parser_destroy` frees all but the leaked lists; the cached pointer does not matter. -/
theorem destroy_own {m : Mem} {base : Addr → Option Obj} {d : DocD} (o : OwnM m base d.objs) :
    ∃ m', destroy m d.p = some m' ∧ OwnM m' base (d.leaked.map fun a => (a, Obj.list [])) := by
  unfold destroy
  rw [getParser_own o (mem_parser d), Option.bind_some]
  simp only
  rw [if_neg (o.nz _ (mem_root d)), getList_own o (mem_root d), Option.bind_some]
  have o1 : OwnM m base (d.secs.flatMap SecD.objs ++ ((d.p, .parser d.root d.last d.pred) ::
      (d.root, .list (d.secs.map fun s => (s.node, s.sec))) :: d.leaked.map fun a => (a, Obj.list []))) := by
    refine o.perm ?_
    unfold DocD.objs
    perm_count
  obtain ⟨m1, e1, o2⟩ := freeLists_own o1
  rw [e1, Option.bind_some]
  obtain ⟨m2, e2, o3⟩ := listFree_own (m := m1) (base := base) (l := d.root)
    (ts := d.secs.map fun t => (t.node, t.sec, Obj.sec t.name t.lst))
    (xs := (d.p, .parser d.root d.last d.pred) :: d.leaked.map fun a => (a, Obj.list [])) (by
      rw [List.map_map, List.flatMap_map]
      refine o2.perm ?_
      simp only [Function.comp_def]
      perm_count)
  rw [e2, Option.bind_some]
  obtain ⟨m3, e3, o4⟩ := store_own o3 (.parser 0 d.last d.pred)
  rw [e3, Option.bind_some]
  exact free_own o4

/-- `ini_parser_create`. -/
theorem create_own {pick : Policy} (hp : Sound pick) {m : Mem} {base : Addr → Option Obj} (o : OwnM m base []) :
    (∃ m', create pick m = some (m', none) ∧ OwnM m' base [] ∧ ¬ NoFail pick base) ∨
    ∃ m' p r, create pick m = some (m', some p) ∧ OwnM m' base (DocD.mk p r 0 0 [] []).objs := by
  unfold create
  rcases alloc_own hp o (.list []) with ⟨m1, e1, o1, -, hn⟩ | ⟨m1, r, e1, o1, -⟩
  · rw [e1]; exact Or.inl ⟨m1, rfl, o1, fun h => h _ _ _ o hn⟩
  rw [e1]
  simp only
  rcases alloc_own hp o1 (.parser r 0 0) with ⟨m2, e2, o2, -, hn⟩ | ⟨m2, p, e2, o2, -⟩
  · rw [e2]
    simp only
    obtain ⟨m3, e3, o3⟩ := listFree_own (ts := []) (l := r) (by simpa using o2)
    rw [e3]
    exact Or.inl ⟨m3, rfl, o3, fun h => h _ _ _ o1 hn⟩
  · rw [e2]
    exact Or.inr ⟨m2, p, r, rfl, o2⟩

end Verif.IniHeap
