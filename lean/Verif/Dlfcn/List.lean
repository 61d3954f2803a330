import Verif.Dlfcn.Model
/-! The doubly linked list of local objects (C78). -/
namespace Verif.Dlfcn

/-- the objects `l` (address, module) are linked in this order, the first one's `previous` being `prev` -/
def Chain (h : Heap) : Option Nat → List (Nat × Nat) → Prop
  | _, [] => True
  | prev, (a, m) :: l => h.at_ a = some ⟨m, prev, l.head?.map (·.1)⟩ ∧ Chain h (some a) l

/-- the heap holds exactly the list `L` behind `first_object` -/
structure Rep (h : Heap) (L : List (Nat × Nat)) : Prop where
  chain : Chain h none ((0, 0) :: L)
  nodup : (((0, 0) :: L).map (·.1)).Nodup
  live : ∀ a, h.at_ a ≠ none → a ∈ ((0, 0) :: L).map (·.1)
  bound : ∀ x ∈ L, x.1 ≤ h.count
  len : L.length ≤ h.count
  nz : ∀ x ∈ L, x.2 ≠ 0
  uniq : (L.map (·.2)).Nodup

theorem rep_init : Rep Heap.init [] := by
  refine ⟨⟨rfl, trivial⟩, by simp, ?_, by simp, by simp, by simp, by simp⟩
  intro a h
  simp only [Heap.init] at h
  split at h
  · simp_all
  · simp at h

theorem chain_frame {h h' : Heap} : ∀ {l : List (Nat × Nat)} {prev : Option Nat},
    (∀ x ∈ l, h'.at_ x.1 = h.at_ x.1) → Chain h prev l → Chain h' prev l := by
  intro l
  induction l with
  | nil => intros; trivial
  | cons x l ih =>
    intro prev hf hc
    obtain ⟨a, m⟩ := x
    refine ⟨?_, ih (fun x hx => hf x (by simp [hx])) hc.2⟩
    rw [hf (a, m) (by simp)]
    exact hc.1

theorem searchLoop_chain (h : Heap) (m : Nat) : ∀ (l : List (Nat × Nat)) (prev : Option Nat) (fuel : Nat),
    Chain h prev l → l.length < fuel →
    searchLoop h m fuel (l.head?.map (·.1)) = some ((l.find? fun x => x.2 == m).map (·.1)) := by
  intro l
  induction l with
  | nil =>
    intro prev fuel _ hf
    cases fuel with
    | zero => simp at hf
    | succ f => rfl
  | cons x l ih =>
    intro prev fuel hc hf
    obtain ⟨a, y⟩ := x
    cases fuel with
    | zero => simp at hf
    | succ f =>
      simp only [List.head?_cons, Option.map_some, searchLoop]
      rw [hc.1]
      simp only
      by_cases hm : y = m
      · rw [if_pos hm, List.find?_cons_of_pos (by simpa using hm)]; rfl
      · rw [if_neg hm, List.find?_cons_of_neg (by simpa using hm)]
        exact ih (some a) f hc.2 (by simp at hf; omega)

theorem localSearch_rep {h : Heap} {L : List (Nat × Nat)} (r : Rep h L) {m : Nat} (hm : m ≠ 0) :
    localSearch h m = some ((L.find? fun x => x.2 == m).map (·.1)) := by
  unfold localSearch
  rw [if_neg hm]
  have := searchLoop_chain h m ((0, 0) :: L) none (h.count + 2) r.chain (by simp; have := r.len; omega)
  rw [List.find?_cons_of_neg (by simpa using hm.symm)] at this
  exact this

theorem localSearch_isSome {h : Heap} {L : List (Nat × Nat)} (r : Rep h L) (m : Nat) :
    ∃ o, localSearch h m = some o ∧ (o.isSome = true ↔ m ∈ L.map (·.2)) := by
  by_cases hm : m = 0
  · subst hm
    refine ⟨none, rfl, ?_⟩
    simp only [Option.isSome_none, Bool.false_eq_true, List.mem_map, false_iff, not_exists, not_and]
    exact fun x hx => r.nz x hx
  · refine ⟨_, localSearch_rep r hm, ?_⟩
    rw [Option.isSome_map, List.find?_isSome]
    simp only [beq_iff_eq, List.mem_map]

theorem tailLoop_chain (h : Heap) : ∀ (l : List (Nat × Nat)) (x : Nat × Nat) (prev : Option Nat) (fuel : Nat),
    Chain h prev (x :: l) → l.length < fuel → tailLoop h fuel x.1 = some ((x :: l).getLast (by simp)).1 := by
  intro l
  induction l with
  | nil =>
    intro x prev fuel hc hf
    cases fuel with
    | zero => simp at hf
    | succ f => simp only [tailLoop]; rw [hc.1]; rfl
  | cons y l ih =>
    intro x prev fuel hc hf
    cases fuel with
    | zero => simp at hf
    | succ f =>
      simp only [tailLoop]
      rw [hc.1]
      simp only [List.head?_cons, Option.map_some]
      rw [ih y (some x.1) f hc.2 (by simp at hf; omega)]
      rw [List.getLast_cons_cons]

/-- appending a new object behind the last one -/
theorem chain_snoc {h : Heap} {p x a m : Nat} (hpa : p ≠ a) : ∀ (l : List (Nat × Nat)) (prev : Option Nat),
    Chain h prev (l ++ [(p, x)]) → ((l ++ [(p, x)]).map (·.1)).Nodup → a ∉ (l ++ [(p, x)]).map (·.1) →
    ∃ pn, h.at_ p = some pn ∧ pn.next = none ∧
      Chain ((h.set p (some { pn with next := some a })).set a (some ⟨m, some p, none⟩)) prev (l ++ [(p, x)] ++ [(a, m)]) := by
  intro l
  induction l with
  | nil =>
    intro prev hc _ _
    refine ⟨_, hc.1, rfl, ?_⟩
    simp only [List.nil_append, List.cons_append, Chain]
    simp [Heap.set, hpa]
  | cons y l ih =>
    intro prev hc hn ha
    obtain ⟨b, z⟩ := y
    simp only [List.cons_append, List.map_cons, List.nodup_cons, List.mem_cons, not_or] at hn ha
    obtain ⟨pn, h1, h2, h3⟩ := ih (some b) hc.2 hn.2 ha.2
    refine ⟨pn, h1, h2, ?_, h3⟩
    have hbp : b ≠ p := by
      rintro rfl
      exact hn.1 (by simp)
    have hc1 := hc.1
    simp only [Heap.set]
    rw [if_neg (fun hh => ha.1 hh.symm), if_neg hbp]
    rw [show (l.append [(p, x)]) = l ++ [(p, x)] from rfl] at hc1
    rw [hc1]
    cases l <;> rfl

theorem localAdd_rep {h : Heap} {L : List (Nat × Nat)} (r : Rep h L) {m : Nat} (hm : m ≠ 0) (mem : Bool) :
    ∃ h' L', localAdd h m mem = some (h', mem || decide (m ∈ L.map (·.2))) ∧ Rep h' L' ∧
      L'.map (·.2) = if m ∈ L.map (·.2) then L.map (·.2) else if mem then L.map (·.2) ++ [m] else L.map (·.2) := by
  unfold localAdd
  rw [if_neg hm]
  obtain ⟨o, ho, hi⟩ := localSearch_isSome r m
  rw [ho]
  cases o with
  | some a =>
    have hmem : m ∈ L.map (·.2) := hi.mp rfl
    exact ⟨h, L, by simp [hmem], r, by rw [if_pos hmem]⟩
  | none =>
    have hmem : m ∉ L.map (·.2) := fun hh => by have := hi.mpr hh; simp at this
    simp only
    rw [tailLoop_chain h L (0, 0) none _ r.chain (by have := r.len; omega)]
    simp only
    cases mem with
    | false => exact ⟨h, L, by simp [hmem], r, by simp [hmem]⟩
    | true =>
      simp only [Bool.not_true, Bool.false_eq_true, if_false]
      have hsplit : (0, 0) :: L = ((0, 0) :: L).dropLast ++ [((0, 0) :: L).getLast (by simp)] :=
        (List.dropLast_concat_getLast (by simp)).symm
      generalize hlast : ((0, 0) :: L).getLast (by simp) = last at hsplit
      obtain ⟨p, x⟩ := last
      have hfresh : h.count + 1 ∉ ((0, 0) :: L).map (·.1) := by
        simp only [List.map_cons, List.mem_cons, not_or, List.mem_map, not_exists, not_and]
        refine ⟨by omega, fun y hy => ?_⟩
        have := r.bound y hy
        omega
      have hp : p ∈ ((0, 0) :: L).map (·.1) := by rw [hsplit]; simp
      have hpa : p ≠ h.count + 1 := by rintro rfl; exact hfresh hp
      have hc := r.chain
      have hn := r.nodup
      have hf := hfresh
      rw [hsplit] at hc hn hf
      obtain ⟨pn, h1, h2, h3⟩ := chain_snoc (m := m) hpa _ none hc hn hf
      rw [h1]
      rw [← hsplit] at h3
      refine ⟨_, L ++ [(h.count + 1, m)], by rw [Bool.true_or], ⟨?_, ?_, ?_, ?_, ?_, ?_, ?_⟩, ?_⟩
      · refine chain_frame (h := (h.set p (some { pn with next := some (h.count + 1) })).set (h.count + 1)
          (some ⟨m, some p, none⟩)) (fun _ _ => rfl) ?_
        simpa using h3
      · have : ((0, 0) :: (L ++ [(h.count + 1, m)])).map (·.1) = ((0, 0) :: L).map (·.1) ++ [h.count + 1] := by simp
        rw [this, List.nodup_append]
        refine ⟨r.nodup, by simp, ?_⟩
        intro a ha b hb
        rw [List.mem_singleton.mp hb]
        rintro rfl
        exact hfresh ha
      · intro a ha
        simp only [Heap.set] at ha
        have hl := r.live a
        by_cases e1 : a = h.count + 1
        · simp [e1]
        · by_cases e2 : a = p
          · subst e2
            have : a ∈ ((0, 0) :: L).map (·.1) := hp
            simp only [List.map_cons, List.mem_cons, List.map_append, List.mem_append] at this ⊢
            rcases this with h | h
            · exact .inl h
            · exact .inr (.inl h)
          · rw [if_neg e1, if_neg e2] at ha
            have := hl ha
            simp only [List.map_cons, List.mem_cons, List.map_append, List.mem_append] at this ⊢
            rcases this with h | h
            · exact .inl h
            · exact .inr (.inl h)
      · intro y hy
        show y.1 ≤ h.count + 1
        rcases List.mem_append.mp hy with hy | hy
        · have := r.bound y hy; omega
        · rw [List.mem_singleton.mp hy]
          exact Nat.le_refl _
      · show _ ≤ h.count + 1
        have := r.len
        simp; omega
      · intro y hy
        rcases List.mem_append.mp hy with hy | hy
        · exact r.nz y hy
        · rw [List.mem_singleton.mp hy]; exact hm
      · rw [List.map_append, List.nodup_append]
        refine ⟨r.uniq, by simp, ?_⟩
        intro a ha b hb
        simp only [List.map_cons, List.map_nil, List.mem_singleton] at hb
        rintro rfl
        exact hmem (hb ▸ ha)
      · rw [if_neg hmem]; simp

/-- unlinking the object behind `(p, x)` -/
theorem chain_unlink {h h' : Heap} {p x b y : Nat} {l2 : List (Nat × Nat)}
    (hp : ∀ prev nx, h.at_ p = some ⟨x, prev, nx⟩ → h'.at_ p = some ⟨x, prev, l2.head?.map (·.1)⟩)
    (hc2 : ∀ c z nx, l2.head?.map (·.1) = some c → h.at_ c = some ⟨z, some b, nx⟩ → h'.at_ c = some ⟨z, some p, nx⟩)
    (hframe : ∀ a, a ≠ p → a ≠ b → l2.head?.map (·.1) ≠ some a → h'.at_ a = h.at_ a) :
    ∀ (l1 : List (Nat × Nat)) (prev : Option Nat), Chain h prev (l1 ++ (p, x) :: (b, y) :: l2) →
      ((l1 ++ (p, x) :: (b, y) :: l2).map (·.1)).Nodup → Chain h' prev (l1 ++ (p, x) :: l2) := by
  intro l1
  induction l1 with
  | nil =>
    intro prev hc hn
    refine ⟨hp _ _ hc.1, ?_⟩
    obtain ⟨_, hb, hl2⟩ := hc
    cases l2 with
    | nil => trivial
    | cons w l3 =>
      obtain ⟨c, z⟩ := w
      refine ⟨hc2 c z _ rfl hl2.1, ?_⟩
      apply chain_frame _ hl2.2
      intro u hu
      simp only [List.nil_append, List.map_cons, List.nodup_cons, List.mem_cons, not_or] at hn
      have hu' : u.1 ∈ l3.map (·.1) := List.mem_map.mpr ⟨u, hu, rfl⟩
      apply hframe
      · rintro rfl; exact hn.1.2.2 hu'
      · rintro rfl; exact hn.2.1.2 hu'
      · simp only [List.head?_cons, Option.map_some, ne_eq, Option.some.injEq]
        rintro rfl; exact hn.2.2.1 hu'
  | cons w l1 ih =>
    intro prev hc hn
    obtain ⟨q, z⟩ := w
    simp only [List.cons_append, List.map_cons, List.nodup_cons] at hn
    refine ⟨?_, ih (some q) hc.2 hn.2⟩
    have hq : q ∉ (l1 ++ (p, x) :: (b, y) :: l2).map (·.1) := hn.1
    simp only [List.map_append, List.map_cons, List.mem_append, List.mem_cons, not_or] at hq
    rw [hframe q hq.2.1 hq.2.2.1 ?_]
    · have := hc.1
      rw [show l1.append ((p, x) :: (b, y) :: l2) = l1 ++ (p, x) :: (b, y) :: l2 from rfl] at this
      rw [this]
      cases l1 <;> rfl
    · intro hh
      rw [Option.map_eq_some_iff] at hh
      obtain ⟨u, hu, rfl⟩ := hh
      exact hq.2.2.2 (List.mem_map.mpr ⟨u, List.mem_of_mem_head? hu, rfl⟩)

/-- what the chain says about an object in the middle -/
theorem chain_mid {h : Heap} {p x b y : Nat} {l2 : List (Nat × Nat)} : ∀ (l1 : List (Nat × Nat)) (prev : Option Nat),
    Chain h prev (l1 ++ (p, x) :: (b, y) :: l2) →
    (∃ pp, h.at_ p = some ⟨x, pp, some b⟩) ∧ h.at_ b = some ⟨y, some p, l2.head?.map (·.1)⟩ ∧ Chain h (some b) l2 := by
  intro l1
  induction l1 with
  | nil => intro prev hc; exact ⟨⟨prev, hc.1⟩, hc.2.1, hc.2.2⟩
  | cons w l1 ih => intro prev hc; exact ih _ hc.2

theorem find_split {L : List (Nat × Nat)} {m a : Nat} (h : (L.find? fun x => x.2 == m).map (·.1) = some a) :
    ∃ l1 l2, L = l1 ++ (a, m) :: l2 ∧ m ∉ l1.map (·.2) := by
  induction L with
  | nil => simp at h
  | cons w L ih =>
    obtain ⟨b, y⟩ := w
    by_cases hy : y = m
    · subst hy
      rw [List.find?_cons_of_pos (by simp)] at h
      simp at h
      subst h
      exact ⟨[], L, rfl, by simp⟩
    · rw [List.find?_cons_of_neg (by simpa using hy)] at h
      obtain ⟨l1, l2, rfl, hn⟩ := ih h
      exact ⟨(b, y) :: l1, l2, rfl, by
        simp only [List.map_cons, List.mem_cons, not_or]
        exact ⟨fun hh => hy hh.symm, hn⟩⟩

theorem localRem_rep {h : Heap} {L : List (Nat × Nat)} (r : Rep h L) (m : Nat) :
    ∃ h' L', localRem h m = some h' ∧ Rep h' L' ∧ L'.map (·.2) = (L.map (·.2)).filter (· != m) := by
  have hfil : m ∉ L.map (·.2) → (L.map (·.2)).filter (· != m) = L.map (·.2) := by
    intro hh
    rw [List.filter_eq_self]
    intro a ha
    simp only [bne_iff_ne, ne_eq]
    rintro rfl
    exact hh ha
  unfold localRem
  by_cases hm : m = 0
  · rw [if_pos hm]
    refine ⟨h, L, rfl, r, (hfil ?_).symm⟩
    rw [List.mem_map]
    rintro ⟨x, hx, e⟩
    exact r.nz x hx (e.trans hm)
  rw [if_neg hm, localSearch_rep r hm]
  cases hf : (L.find? fun x => x.2 == m).map (·.1) with
  | none =>
    refine ⟨h, L, rfl, r, (hfil ?_).symm⟩
    rw [List.mem_map]
    rintro ⟨x, hx, e⟩
    rw [Option.map_eq_none_iff, List.find?_eq_none] at hf
    exact hf x hx (by simpa using e)
  | some a =>
    obtain ⟨l1, l2, rfl, hm1⟩ := find_split hf
    -- the object before
    have hsplit : (0, 0) :: (l1 ++ (a, m) :: l2) =
        ((0, 0) :: l1).dropLast ++ ((0, 0) :: l1).getLast (by simp) :: (a, m) :: l2 := by
      have := List.dropLast_concat_getLast (l := (0, 0) :: l1) (by simp)
      calc (0, 0) :: (l1 ++ (a, m) :: l2) = ((0, 0) :: l1) ++ (a, m) :: l2 := rfl
        _ = _ := by conv => lhs; rw [← this]
                    simp
    generalize ((0, 0) :: l1).getLast (by simp) = w at hsplit
    generalize hk : ((0, 0) :: l1).dropLast = k at hsplit
    obtain ⟨p, x⟩ := w
    have hc := r.chain
    have hn := r.nodup
    rw [hsplit] at hc hn
    obtain ⟨⟨pp, hp⟩, ha, hl2⟩ := chain_mid k none hc
    simp only
    rw [ha]
    have hnd := hn
    simp only [List.map_append, List.map_cons] at hnd
    rw [List.nodup_append] at hnd
    obtain ⟨_, hnd2, _⟩ := hnd
    simp only [List.nodup_cons, List.mem_cons, not_or] at hnd2
    obtain ⟨⟨hpa, hpl2⟩, hal2, _⟩ := hnd2
    have ha0 : a ≠ 0 := by
      have := r.nodup
      simp only [List.map_cons, List.nodup_cons, List.map_append, List.mem_append, List.mem_cons, not_or] at this
      exact fun hh => this.1.2.1 hh.symm
    have hlive : ∀ b, h.at_ b ≠ none → b ≠ a → b ∈ ((0, 0) :: (l1 ++ l2)).map (·.1) := by
      intro b hb hba
      have := r.live b hb
      simp only [List.map_cons, List.map_append, List.mem_cons, List.mem_append] at this ⊢
      rcases this with h | h | h | h
      · exact .inl h
      · exact .inr (.inl h)
      · exact absurd h hba
      · exact .inr (.inr h)
    -- rest of the proof, once the final heap is known
    have finish : ∀ h' : Heap, h'.count = h.count → h'.at_ a = none →
        (∀ b, b ≠ a → h'.at_ b ≠ none → h.at_ b ≠ none) →
        Chain h' none (k ++ (p, x) :: l2) → Rep h' (l1 ++ l2) ∧
          (l1 ++ l2).map (·.2) = ((l1 ++ (a, m) :: l2).map (·.2)).filter (· != m) := by
      intro h' hcnt hna hlv hch
      have hks : (0, 0) :: (l1 ++ l2) = k ++ (p, x) :: l2 := by
        have h1 : ((0, 0) :: l1) ++ ((a, m) :: l2) = (k ++ [(p, x)]) ++ ((a, m) :: l2) := by
          rw [List.cons_append, hsplit]; simp
        have h2 := List.append_cancel_right h1
        have : ((0, 0) :: l1) ++ l2 = (k ++ [(p, x)]) ++ l2 := by rw [h2]
        simpa using this
      refine ⟨⟨by rw [hks]; exact hch, ?_, ?_, ?_, ?_, ?_, ?_⟩, ?_⟩
      · have := r.nodup
        refine this.sublist ?_
        apply List.Sublist.map
        apply List.Sublist.cons_cons
        exact List.Sublist.append_left (List.sublist_cons_self _ _) _
      · intro b hb
        by_cases hba : b = a
        · rw [hba, hna] at hb; exact absurd rfl hb
        · exact hlive b (hlv b hba hb) hba
      · intro y hy
        rw [hcnt]
        exact r.bound y (by
          rcases List.mem_append.mp hy with h | h
          · simp [h]
          · simp [h])
      · have := r.len
        rw [hcnt]
        simp at this ⊢
        omega
      · intro y hy
        exact r.nz y (by
          rcases List.mem_append.mp hy with h | h
          · simp [h]
          · simp [h])
      · refine r.uniq.sublist ?_
        apply List.Sublist.map
        exact List.Sublist.append_left (List.sublist_cons_self _ _) _
      · have hu := r.uniq
        rw [List.map_append, List.map_cons, List.nodup_append] at hu
        obtain ⟨_, hu2, _⟩ := hu
        rw [List.nodup_cons] at hu2
        have k1 : (l1.map (·.2)).filter (· != m) = l1.map (·.2) := by
          rw [List.filter_eq_self]
          intro b hb; simp only [bne_iff_ne, ne_eq]; rintro rfl; exact hm1 hb
        have k2 : (l2.map (·.2)).filter (· != m) = l2.map (·.2) := by
          rw [List.filter_eq_self]
          intro b hb; simp only [bne_iff_ne, ne_eq]; rintro rfl; exact hu2.1 hb
        rw [List.map_append, List.map_append, List.map_cons, List.filter_append, k1,
          List.filter_cons_of_neg (by simp), k2]
    cases l2 with
    | nil =>
      simp only [unlinkNext, List.head?_nil, Option.map_none]
      rw [ha]
      simp only [unlinkPrev, List.head?_nil, Option.map_none]
      rw [hp]
      simp only [Option.map_some]
      have hset : (h.set p (some ⟨x, pp, none⟩)).at_ a ≠ none := by
        simp only [Heap.set]
        rw [if_neg (fun hh => hpa hh.symm), ha]; simp
      rw [if_neg (by simp only [not_or]; exact ⟨ha0, hset⟩)]
      obtain ⟨f1, f2⟩ := finish ((h.set p (some ⟨x, pp, none⟩)).set a none) rfl (by simp [Heap.set])
        (by
          intro b hb hh
          simp only [Heap.set] at hh
          rw [if_neg hb] at hh
          by_cases hbp : b = p
          · rw [hbp, hp]; simp
          · rwa [if_neg hbp] at hh)
        (by
          apply chain_unlink (h := h) (b := a) (y := m) _ _ _ k none hc hn
          · intro prev nx hh
            rw [hp] at hh
            cases hh
            simp [Heap.set, hpa]
          · intro c z nx hh; simp at hh
          · intro b hb hba _
            simp only [Heap.set]
            rw [if_neg hba, if_neg hb])
      exact ⟨_, _, rfl, f1, f2⟩
    | cons u l3 =>
      obtain ⟨c, z⟩ := u
      have hcn := hl2.1
      have hca : c ≠ a := by
        rintro rfl
        exact hal2 (by simp)
      have hcp : c ≠ p := by
        rintro rfl
        exact hpl2 (by simp)
      simp only [unlinkNext, List.head?_cons, Option.map_some]
      rw [hcn]
      simp only [Option.map_some]
      rw [show (h.set c (some ⟨z, some p, l3.head?.map (·.1)⟩)).at_ a = some ⟨m, some p, some c⟩ by
        simp only [Heap.set]; rw [if_neg (fun hh => hca hh.symm), ha]; rfl]
      simp only [unlinkPrev]
      rw [show (h.set c (some ⟨z, some p, l3.head?.map (·.1)⟩)).at_ p = some ⟨x, pp, some a⟩ by
        simp only [Heap.set]; rw [if_neg (fun hh => hcp hh.symm), hp]]
      simp only [Option.map_some]
      rw [if_neg (by
        simp only [not_or]
        refine ⟨ha0, ?_⟩
        simp only [Heap.set]
        rw [if_neg (fun hh => hpa hh.symm), if_neg (fun hh => hca hh.symm), ha]; simp)]
      obtain ⟨f1, f2⟩ := finish
        (((h.set c (some ⟨z, some p, l3.head?.map (·.1)⟩)).set p (some ⟨x, pp, some c⟩)).set a none) rfl (by simp [Heap.set])
        (by
          intro b hb hh
          simp only [Heap.set] at hh
          rw [if_neg hb] at hh
          by_cases hbp : b = p
          · rw [hbp, hp]; simp
          · rw [if_neg hbp] at hh
            by_cases hbc : b = c
            · rw [hbc, hcn]; simp
            · rwa [if_neg hbc] at hh)
        (by
          apply chain_unlink (h := h) (b := a) (y := m) _ _ _ k none hc hn
          · intro prev nx hh
            rw [hp] at hh
            cases hh
            simp [Heap.set, hpa]
          · intro c' z' nx hh hc'
            simp only [List.head?_cons, Option.map_some, Option.some.injEq] at hh
            subst hh
            rw [hcn] at hc'
            cases hc'
            simp only [Heap.set]
            rw [if_neg hca, if_neg hcp]; simp
          · intro b hb hba hbc
            simp only [List.head?_cons, Option.map_some, ne_eq, Option.some.injEq] at hbc
            simp only [Heap.set]
            rw [if_neg hba, if_neg hb, if_neg (fun hh => hbc hh.symm)])
      exact ⟨_, _, rfl, f1, f2⟩

end Verif.Dlfcn
