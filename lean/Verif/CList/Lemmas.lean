import Verif.CList.Spec
import Mathlib.Data.List.Nodup
namespace Verif.CList
open Spec

/-- The nodes of `L` are linked in the heap from address `p` to address `q`. -/
def Seg (h : Addr → Option Node) : Addr → Seq → Addr → Prop
  | p, [], q => p = q
  | p, x :: L, q => p = x.1 ∧ ∃ n, h x.1 = some ⟨n, x.2⟩ ∧ Seg h n L q

/-- The list state represents the sequence `L`; its heap holds exactly the nodes of `L` (no leak). -/
structure R (s : St) (L : Seq) : Prop where
  seg : Seg s.heap s.head L 0
  nodup : (L.map (·.1)).Nodup
  nz : 0 ∉ L.map (·.1)
  tail : s.tail = (L.getLast?.map (·.1)).getD 0
  len : s.length = L.length
  only : ∀ a, s.heap a ≠ none → a ∈ L.map (·.1)
  dnz : 0 ∉ L.map (·.2)

theorem Seg.congr {h h' : Addr → Option Node} {L : Seq} : ∀ {p q : Addr},
    Seg h p L q → (∀ a ∈ L.map (·.1), h' a = h a) → Seg h' p L q := by
  induction L with
  | nil => intro p q hs _; exact hs
  | cons x L ih =>
    intro p q hs hc
    obtain ⟨h1, n, h2, h3⟩ := hs
    refine ⟨h1, n, ?_, ih h3 (fun a ha => hc a (by simp only [List.map_cons, List.mem_cons]; right; exact ha))⟩
    rw [hc x.1 (by simp)]; exact h2

theorem Seg.append {h : Addr → Option Node} {L M : Seq} : ∀ {p q : Addr},
    Seg h p (L ++ M) q ↔ ∃ m, Seg h p L m ∧ Seg h m M q := by
  induction L with
  | nil => intro p q; simp [Seg]
  | cons x L ih =>
    intro p q
    constructor
    · rintro ⟨h1, n, h2, h3⟩
      obtain ⟨m, h4, h5⟩ := ih.mp h3
      exact ⟨m, ⟨h1, n, h2, h4⟩, h5⟩
    · rintro ⟨m, ⟨h1, n, h2, h4⟩, h5⟩
      exact ⟨h1, n, h2, ih.mpr ⟨m, h4, h5⟩⟩

theorem setNode_same (h : Addr → Option Node) (a : Addr) (n : Option Node) : setNode h a n a = n := by
  simp [setNode]

theorem setNode_ne (h : Addr → Option Node) {a b : Addr} (n : Option Node) (hne : b ≠ a) :
    setNode h a n b = h b := by
  simp [setNode, hne]

theorem Seg.set {h : Addr → Option Node} {L : Seq} {p q a : Addr} {n : Option Node}
    (hs : Seg h p L q) (ha : a ∉ L.map (·.1)) : Seg (setNode h a n) p L q :=
  hs.congr fun _ hb => setNode_ne h n (fun e => ha (e ▸ hb))

theorem R_new : R new [] := by
  refine ⟨rfl, by simp, by simp, rfl, rfl, ?_, by simp⟩
  intro a h; simp [new] at h

theorem Seg.start {h : Addr → Option Node} {x : Addr × Ptr} {L : Seq} {p q : Addr}
    (hs : Seg h p (x :: L) q) : p = x.1 := hs.1

theorem append_ok {s : St} {L : Seq} (r : R s L) (d : Ptr) (al : Option Addr) (hf : FreshFor L al)
    (cb : Bool) :
    ∃ s', append s d al = some (s', decide ((Spec.step cb L (.append d al)).2.1 = 1)) ∧
      R s' (Spec.step cb L (.append d al)).1 := by
  unfold append
  by_cases hd : d = 0
  · subst hd
    refine ⟨s, ?_, ?_⟩
    · cases al <;> simp [Spec.step]
    · cases al <;> simp only [Spec.step] <;> simpa using r
  · rw [if_neg hd]
    cases al with
    | none => exact ⟨s, by simp [Spec.step], by simpa [Spec.step] using r⟩
    | some a =>
      obtain ⟨ha0, haL⟩ := hf a rfl
      simp only [Spec.step, if_neg hd]
      rcases List.eq_nil_or_concat' L with rfl | ⟨L', y, rfl⟩
      · have ht : s.tail = 0 := by simpa using r.tail
        rw [if_pos ht]
        refine ⟨_, rfl, ?_⟩
        refine ⟨⟨rfl, 0, setNode_same _ _ _, rfl⟩, by simp, by simpa using Ne.symm ha0, by simp, ?_, ?_,
          by simpa using Ne.symm hd⟩
        · simp [r.len]
        · intro b hb
          simp only at hb
          by_cases h : b = a
          · simp [h]
          · rw [setNode_ne _ _ h] at hb
            simpa using r.only b hb
      · have ht : s.tail = y.1 := by simpa using r.tail
        have hy0 : y.1 ≠ 0 := by
          intro h; exact r.nz (by simp [← h])
        have hya : y.1 ≠ a := by
          intro h; exact haL (by simp [← h])
        obtain ⟨m, hs1, hs2⟩ := Seg.append.mp r.seg
        obtain ⟨hm, n, hn, _⟩ := hs2
        have hnd := r.nodup
        simp only [List.map_append, List.map_cons, List.map_nil, List.nodup_append] at hnd
        have hy : y.1 ∉ L'.map (·.1) := fun h => hnd.2.2 _ h _ (by simp) rfl
        have haL' : a ∉ L'.map (·.1) := fun h => haL (by simp at h ⊢; tauto)
        rw [ht, if_neg hy0, setNode_ne _ _ hya, hn]
        refine ⟨_, rfl, ?_⟩
        refine ⟨?_, ?_, ?_, by simp, by simp [r.len], ?_, ?_⟩
        · rw [List.append_assoc]
          refine Seg.append.mpr ⟨m, (hs1.set haL').set hy, ?_⟩
          refine ⟨hm, a, setNode_same _ _ _, rfl, 0, ?_, rfl⟩
          simp only
          rw [setNode_ne _ _ (Ne.symm hya), setNode_same]
        · rw [List.map_append, List.nodup_append]
          refine ⟨r.nodup, by simp, ?_⟩
          intro b hb c hc
          simp only [List.map_cons, List.map_nil, List.mem_singleton] at hc
          rintro rfl
          exact haL (hc ▸ hb)
        · rw [List.map_append, List.mem_append]
          rintro (h | h)
          · exact r.nz h
          · simp at h; exact ha0 h.symm
        · intro b hb
          simp only at hb
          rw [List.map_append, List.mem_append]
          by_cases h : b = a
          · right; simp [h]
          · left
            by_cases h' : b = y.1
            · simp [h']
            · rw [setNode_ne _ _ h', setNode_ne _ _ h] at hb
              exact r.only b hb
        · rw [List.map_append, List.mem_append]
          rintro (h | h)
          · exact r.dnz h
          · simp at h; exact hd h.symm

theorem prepend_ok {s : St} {L : Seq} (r : R s L) (d : Ptr) (al : Option Addr) (hf : FreshFor L al)
    (cb : Bool) :
    ∃ s', prepend s d al = some (s', decide ((Spec.step cb L (.prepend d al)).2.1 = 1)) ∧
      R s' (Spec.step cb L (.prepend d al)).1 := by
  unfold prepend
  by_cases hd : d = 0
  · subst hd
    refine ⟨s, ?_, ?_⟩
    · cases al <;> simp [Spec.step]
    · cases al <;> simp only [Spec.step] <;> simpa using r
  · rw [if_neg hd]
    cases al with
    | none => exact ⟨s, by simp [Spec.step], by simpa [Spec.step] using r⟩
    | some a =>
      obtain ⟨ha0, haL⟩ := hf a rfl
      simp only [Spec.step, if_neg hd]
      refine ⟨_, rfl, ?_⟩
      refine ⟨⟨rfl, s.head, setNode_same _ _ _, r.seg.set haL⟩, ?_, ?_, ?_, by simp [r.len], ?_, ?_⟩
      · rw [List.map_cons, List.nodup_cons]; exact ⟨haL, r.nodup⟩
      · rw [List.map_cons, List.mem_cons]
        rintro (h | h)
        · exact ha0 h.symm
        · exact r.nz h
      · simp only
        rcases List.eq_nil_or_concat' L with rfl | ⟨L', y, rfl⟩
        · have ht : s.tail = 0 := by simpa using r.tail
          simp [ht]
        · have ht : s.tail = y.1 := by simpa using r.tail
          have hy0 : y.1 ≠ 0 := by
            intro h; exact r.nz (by simp [← h])
          rw [ht, if_neg hy0, ← List.cons_append, List.getLast?_append]
          simp
      · intro b hb
        simp only at hb
        rw [List.map_cons, List.mem_cons]
        by_cases h : b = a
        · left; exact h
        · rw [setNode_ne _ _ h] at hb; right; exact r.only b hb
      · rw [List.map_cons, List.mem_cons]
        rintro (h | h)
        · exact hd h.symm
        · exact r.dnz h

theorem insertBehind_split {p : Addr} {x : Addr × Ptr} {A B : Seq} {y : Addr × Ptr}
    (hy : y.1 = p) (hA : p ∉ A.map (·.1)) :
    insertBehind p x (A ++ y :: B) = A ++ y :: x :: B := by
  induction A with
  | nil => simp [insertBehind, hy]
  | cons a A ih =>
    simp only [List.map_cons, List.mem_cons, not_or] at hA
    simp only [List.cons_append, insertBehind]
    rw [if_neg (Ne.symm hA.1), ih hA.2]

theorem insertAfter_ok {s : St} {L : Seq} (r : R s L) (p : Addr) (d : Ptr) (al : Option Addr)
    (hv : Valid L (.insertAfter p d al)) (cb : Bool) :
    ∃ s', insertAfter s p d al = some (s', decide ((Spec.step cb L (.insertAfter p d al)).2.1 = 1)) ∧
      R s' (Spec.step cb L (.insertAfter p d al)).1 := by
  obtain ⟨hf, hp⟩ := hv
  unfold insertAfter
  by_cases hpd : p = 0 ∨ d = 0
  · rw [if_pos hpd]
    refine ⟨s, ?_, ?_⟩
    · cases al <;> simp [Spec.step, hpd]
    · cases al <;> simp only [Spec.step, if_pos hpd] <;> exact r
  · rw [if_neg hpd]
    cases al with
    | none => exact ⟨s, by simp [Spec.step], by simpa [Spec.step] using r⟩
    | some a =>
      obtain ⟨ha0, haL⟩ := hf a rfl
      simp only [Spec.step, if_neg hpd]
      rw [not_or] at hpd
      have hp := hp.resolve_left hpd.1
      obtain ⟨y, hyL, hyp⟩ := List.mem_map.mp hp
      obtain ⟨A, B, rfl⟩ := List.append_of_mem hyL
      obtain ⟨m, hs1, hm, n, hn, hs2⟩ := Seg.append.mp r.seg
      have hnd := r.nodup
      simp only [List.map_append, List.map_cons, List.nodup_append, List.nodup_cons] at hnd
      have hpA : p ∉ A.map (·.1) := fun h => hnd.2.2 _ h _ (by simp) hyp.symm
      have hpB : p ∉ B.map (·.1) := hyp ▸ hnd.2.1.1
      simp only [List.map_append, List.map_cons, List.mem_append, List.mem_cons, not_or] at haL
      have hpa : p ≠ a := by rw [← hyp]; exact Ne.symm haL.2.1
      subst hyp
      rw [hn, insertBehind_split rfl hpA]
      refine ⟨_, rfl, ?_⟩
      refine ⟨?_, ?_, ?_, ?_, by simp [r.len]; omega, ?_, ?_⟩
      · refine Seg.append.mpr ⟨m, (hs1.set haL.1).set hpA, hm, a, setNode_same _ _ _, rfl, n, ?_,
          (hs2.set haL.2.2).set hpB⟩
        simp only
        rw [setNode_ne _ _ (Ne.symm hpa), setNode_same]
      · simp only [List.map_append, List.map_cons, List.nodup_append, List.nodup_cons]
        refine ⟨hnd.1, ⟨?_, haL.2.2, hnd.2.1.2⟩, ?_⟩
        · rw [List.mem_cons, not_or]; exact ⟨hpa, hpB⟩
        · intro b hb c hc
          rw [List.mem_cons, List.mem_cons] at hc
          rcases hc with hc | hc | hc
          · exact hnd.2.2 b hb c (by simp [hc])
          · rw [hc]; rintro rfl; exact haL.1 hb
          · exact hnd.2.2 b hb c (by rw [List.mem_cons]; exact Or.inr hc)
      · have := r.nz
        simp only [List.map_append, List.map_cons, List.mem_append, List.mem_cons, not_or] at this ⊢
        exact ⟨this.1, this.2.1, Ne.symm ha0, this.2.2⟩
      · simp only
        rw [r.tail]
        rcases List.eq_nil_or_concat' B with rfl | ⟨B', z, rfl⟩
        · simp
        · have hz : z.1 ≠ y.1 := by
            intro h; exact hpB (by simp [← h])
          rw [show A ++ y :: (B' ++ [z]) = (A ++ y :: B') ++ [z] by simp,
            show A ++ y :: (a, d) :: (B' ++ [z]) = (A ++ y :: (a, d) :: B') ++ [z] by simp]
          simp only [List.getLast?_append, List.getLast?_singleton, Option.some_or, Option.map_some, Option.getD_some, hz,
            if_false]
      · intro b hb
        simp only at hb
        simp only [List.map_append, List.map_cons, List.mem_append, List.mem_cons]
        by_cases h : b = a
        · simp [h]
        · by_cases h' : b = y.1
          · simp [h']
          · rw [setNode_ne _ _ h', setNode_ne _ _ h] at hb
            have := r.only b hb
            simp only [List.map_append, List.map_cons, List.mem_append, List.mem_cons] at this
            tauto
      · have := r.dnz
        simp only [List.map_append, List.map_cons, List.mem_append, List.mem_cons, not_or] at this ⊢
        exact ⟨this.1, this.2.1, Ne.symm hpd.2, this.2.2⟩

theorem deleteFirst_split {d : Ptr} {A B : Seq} {y : Addr × Ptr}
    (hy : y.2 = d) (hA : d ∉ A.map (·.2)) : deleteFirst d (A ++ y :: B) = A ++ B := by
  induction A with
  | nil => simp [deleteFirst, hy]
  | cons a A ih =>
    simp only [List.map_cons, List.mem_cons, not_or] at hA
    simp only [List.cons_append, deleteFirst]
    rw [if_neg (Ne.symm hA.1), ih hA.2]

/-- Removing `y` behind `x` from the represented sequence. -/
theorem removeLoop_ok (cb : Bool) {s : St} (d : Ptr) (B : Seq) :
    ∀ (fuel : Nat) (A : Seq) (x : Addr × Ptr) (node : Addr), R s (A ++ x :: B) → B.length < fuel →
      d ∉ (A ++ [x]).map (·.2) → Seg s.heap node B 0 →
      ∃ s', removeLoop cb s d fuel x.1 node = some (s', decide (d ∈ B.map (·.2)),
          if d ∈ B.map (·.2) then (if cb then [d] else []) else []) ∧
        R s' (if d ∈ B.map (·.2) then deleteFirst d (A ++ x :: B) else A ++ x :: B) := by
  induction B with
  | nil =>
    intro fuel A x node r hfu hA hs
    obtain ⟨f, rfl⟩ : ∃ f, fuel = f + 1 := ⟨fuel - 1, by simp at hfu; omega⟩
    unfold removeLoop
    rw [if_pos (show node = 0 from hs)]
    exact ⟨s, by simp, by simpa using r⟩
  | cons y B ih =>
    intro fuel A x node r hfu hA hs
    obtain ⟨f, rfl⟩ : ∃ f, fuel = f + 1 := ⟨fuel - 1, by simp at hfu; omega⟩
    obtain ⟨hny, n, hn, hs2⟩ := hs
    have hnz := r.nz
    simp only [List.map_append, List.map_cons, List.mem_append, List.mem_cons, not_or] at hnz
    unfold removeLoop
    rw [if_neg (by rw [hny]; exact Ne.symm hnz.2.2.1), hny, hn]
    simp only
    by_cases hyd : y.2 = d
    · rw [if_neg (by simpa using hyd)]
      simp only [freeNode, hn]
      have hnd := r.nodup
      simp only [List.map_append, List.map_cons, List.nodup_append, List.nodup_cons, List.mem_cons,
        not_or] at hnd
      obtain ⟨hndA, ⟨⟨hxy, hxB⟩, hyB, hndB⟩, hAd⟩ := hnd
      obtain ⟨m, hs1, hm, nx, hx, _⟩ := Seg.append.mp r.seg
      rw [setNode_ne _ _ hxy, hx]
      have hyA : y.1 ∉ A.map (·.1) := fun h => hAd _ h _ (Or.inr (Or.inl rfl)) rfl
      have hxA : x.1 ∉ A.map (·.1) := fun h => hAd _ h _ (Or.inl rfl) rfl
      refine ⟨_, by simp only [List.map_cons, hyd, List.mem_cons, true_or, if_true, decide_true]; rfl, ?_⟩
      have hdel : deleteFirst d (A ++ x :: y :: B) = A ++ x :: B := by
        rw [show A ++ x :: y :: B = (A ++ [x]) ++ y :: B by simp, deleteFirst_split hyd hA]
        simp
      rw [if_pos (show d ∈ (y :: B).map (·.2) by simp [hyd]), hdel]
      refine ⟨?_, ?_, ?_, ?_, by simp [r.len], ?_, ?_⟩
      · exact Seg.append.mpr ⟨m, (hs1.set hyA).set hxA, hm, n, setNode_same _ _ _,
          (hs2.set hyB).set hxB⟩
      · simp only [List.map_append, List.map_cons, List.nodup_append, List.nodup_cons]
        refine ⟨hndA, ⟨hxB, hndB⟩, ?_⟩
        intro b hb c hc
        rw [List.mem_cons] at hc
        rcases hc with hc | hc
        · exact hAd b hb c (Or.inl hc)
        · exact hAd b hb c (Or.inr (Or.inr hc))
      · simp only [List.map_append, List.map_cons, List.mem_append, List.mem_cons, not_or]
        exact ⟨hnz.1, hnz.2.1, hnz.2.2.2⟩
      · simp only
        rw [r.tail]
        rcases List.eq_nil_or_concat' B with rfl | ⟨B', z, rfl⟩
        · simp
        · have hz : z.1 ≠ y.1 := by
            intro h; exact hyB (by simp [← h])
          rw [show A ++ x :: y :: (B' ++ [z]) = (A ++ x :: y :: B') ++ [z] by simp,
            show A ++ x :: (B' ++ [z]) = (A ++ x :: B') ++ [z] by simp]
          simp only [List.getLast?_append, List.getLast?_singleton, Option.some_or, Option.map_some, Option.getD_some, hz,
            if_false]
      · intro b hb
        simp only at hb
        simp only [List.map_append, List.map_cons, List.mem_append, List.mem_cons]
        by_cases h : b = x.1
        · simp [h]
        · rw [setNode_ne _ _ h] at hb
          by_cases h' : b = y.1
          · rw [h', setNode_same] at hb; exact absurd rfl hb
          · rw [setNode_ne _ _ h'] at hb
            have := r.only b hb
            simp only [List.map_append, List.map_cons, List.mem_append, List.mem_cons] at this
            tauto
      · have := r.dnz
        simp only [List.map_append, List.map_cons, List.mem_append, List.mem_cons, not_or] at this ⊢
        exact ⟨this.1, this.2.1, this.2.2.2⟩
    · rw [if_pos (by simpa using hyd)]
      have := ih f (A ++ [x]) y n (by simpa using r) (by simp at hfu; omega)
        (by
          rw [List.map_append, List.mem_append, not_or]
          exact ⟨hA, by simpa using Ne.symm hyd⟩) hs2
      have hmem : (d ∈ (y :: B).map (·.2)) = (d ∈ B.map (·.2)) := by
        simp only [List.map_cons, List.mem_cons, eq_iff_iff]
        constructor
        · rintro (h | h)
          · exact absurd h.symm hyd
          · exact h
        · exact Or.inr
      simp only [hmem]
      rw [show A ++ x :: y :: B = (A ++ [x]) ++ y :: B by simp]
      exact this

theorem remove_ok (cb : Bool) {s : St} {L : Seq} (r : R s L) (d : Ptr) :
    ∃ s', remove cb s d = some (s', decide (d ∈ L.map (·.2)),
        if d ∈ L.map (·.2) then (if cb then [d] else []) else []) ∧
      R s' (if d ∈ L.map (·.2) then deleteFirst d L else L) := by
  unfold remove
  by_cases hd : d = 0
  · have : d ∉ L.map (·.2) := by rw [hd]; exact r.dnz
    rw [if_pos (Or.inl hd)]
    exact ⟨s, by simp only [this]; simp, by rw [if_neg this]; exact r⟩
  · cases L with
    | nil =>
      rw [if_pos (Or.inr (by simpa using r.len))]
      exact ⟨s, by simp, by simpa using r⟩
    | cons x L =>
      rw [if_neg (by rw [not_or]; exact ⟨hd, by rw [r.len]; simp⟩)]
      obtain ⟨hh, n, hn, hs⟩ := r.seg
      rw [hh, hn]
      simp only
      by_cases hx : x.2 = d
      · rw [if_pos hx]
        simp only [freeNode, hn]
        have hnd := r.nodup
        simp only [List.map_cons, List.nodup_cons] at hnd
        refine ⟨_, by simp only [List.map_cons, hx, List.mem_cons, true_or, if_true, decide_true]; rfl, ?_⟩
        rw [if_pos (show d ∈ (x :: L).map (·.2) by simp [hx])]
        simp only [deleteFirst, hx, if_true]
        refine ⟨hs.set hnd.1, hnd.2, ?_, ?_, by simp [r.len], ?_, ?_⟩
        · have := r.nz
          simp only [List.map_cons, List.mem_cons, not_or] at this
          exact this.2
        · simp only
          rw [r.tail]
          rcases List.eq_nil_or_concat' L with rfl | ⟨L', z, rfl⟩
          · simp only [List.getLast?_singleton, Option.map_some, Option.getD_some, hh, if_true]
            exact hs
          · have hz : z.1 ≠ x.1 := by
              intro h; exact hnd.1 (by simp [← h])
            rw [show x :: (L' ++ [z]) = (x :: L') ++ [z] by simp, hh]
            simp only [List.getLast?_append, List.getLast?_singleton, Option.some_or, Option.map_some,
              Option.getD_some, hz, if_false]
        · intro b hb
          simp only at hb
          by_cases h' : b = x.1
          · rw [h', setNode_same] at hb; exact absurd rfl hb
          · rw [setNode_ne _ _ h'] at hb
            have := r.only b hb
            simp only [List.map_cons, List.mem_cons] at this
            exact this.resolve_left h'
        · have := r.dnz
          simp only [List.map_cons, List.mem_cons, not_or] at this
          exact this.2
      · rw [if_neg hx]
        have := removeLoop_ok cb d L (s.length + 1) [] x n (by simpa using r)
          (by rw [r.len]; simp; omega) (by simpa using Ne.symm hx) hs
        have hmem : (d ∈ (x :: L).map (·.2)) = (d ∈ L.map (·.2)) := by
          simp only [List.map_cons, List.mem_cons, eq_iff_iff]
          constructor
          · rintro (h | h)
            · exact absurd h.symm hx
            · exact h
          · exact Or.inr
        simp only [hmem]
        exact this

theorem clearLoop_ok (cb : Bool) (L : Seq) :
    ∀ (fuel : Nat) (s : St) (node : Addr), Seg s.heap node L 0 → (L.map (·.1)).Nodup →
      0 ∉ L.map (·.1) → L.length < fuel → (∀ a, s.heap a ≠ none → a ∈ L.map (·.1)) →
      ∃ s', clearLoop cb fuel s node = some (s', if cb then L.map (·.2) else []) ∧
        ∀ a, s'.heap a = none := by
  induction L with
  | nil =>
    intro fuel s node hs _ _ hf ho
    obtain ⟨f, rfl⟩ : ∃ f, fuel = f + 1 := ⟨fuel - 1, by simp at hf; omega⟩
    unfold clearLoop
    rw [if_pos (show node = 0 from hs)]
    refine ⟨s, by simp, fun a => ?_⟩
    by_contra h
    simpa using ho a h
  | cons x L ih =>
    intro fuel s node hs hnd hnz hf ho
    obtain ⟨f, rfl⟩ : ∃ f, fuel = f + 1 := ⟨fuel - 1, by simp at hf; omega⟩
    obtain ⟨hh, n, hn, hs2⟩ := hs
    simp only [List.map_cons, List.nodup_cons] at hnd
    simp only [List.map_cons, List.mem_cons, not_or] at hnz
    unfold clearLoop
    rw [if_neg (by rw [hh]; exact Ne.symm hnz.1)]
    simp only [freeNode, hh, hn]
    obtain ⟨s', h1, h2⟩ := ih f { s with heap := setNode s.heap x.1 none, length := s.length - 1 } n
      (hs2.set hnd.1) hnd.2 hnz.2 (by simp at hf; omega) (by
        intro b hb
        simp only at hb
        by_cases h' : b = x.1
        · rw [h', setNode_same] at hb; exact absurd rfl hb
        · rw [setNode_ne _ _ h'] at hb
          have := ho b hb
          simp only [List.map_cons, List.mem_cons] at this
          exact this.resolve_left h')
    rw [h1]
    refine ⟨s', ?_, h2⟩
    cases cb <;> simp

theorem clear_ok (cb : Bool) {s : St} {L : Seq} (r : R s L) :
    ∃ s', clear cb s = some (s', if cb then L.map (·.2) else []) ∧ R s' [] := by
  obtain ⟨s', h1, h2⟩ := clearLoop_ok cb L (s.length + 1) s s.head r.seg r.nodup r.nz
    (by rw [r.len]; omega) r.only
  unfold clear
  rw [h1]
  refine ⟨_, rfl, rfl, by simp, by simp, rfl, rfl, ?_, by simp⟩
  intro a h
  exact absurd (h2 a) h

theorem containsLoop_ok (s : St) (d : Ptr) (L : Seq) :
    ∀ (fuel : Nat) (node : Addr), Seg s.heap node L 0 → 0 ∉ L.map (·.1) → L.length < fuel →
      containsLoop s d fuel node = some (decide (d ∈ L.map (·.2))) := by
  induction L with
  | nil =>
    intro fuel node hs _ hf
    obtain ⟨f, rfl⟩ : ∃ f, fuel = f + 1 := ⟨fuel - 1, by simp at hf; omega⟩
    unfold containsLoop
    rw [if_pos (show node = 0 from hs)]; simp
  | cons x L ih =>
    intro fuel node hs hnz hf
    obtain ⟨f, rfl⟩ : ∃ f, fuel = f + 1 := ⟨fuel - 1, by simp at hf; omega⟩
    obtain ⟨hh, n, hn, hs2⟩ := hs
    simp only [List.map_cons, List.mem_cons, not_or] at hnz
    unfold containsLoop
    rw [if_neg (by rw [hh]; exact Ne.symm hnz.1), hh, hn]
    simp only
    by_cases hx : x.2 = d
    · rw [if_pos hx]; simp [hx]
    · rw [if_neg hx, ih f n hs2 hnz.2 (by simp at hf; omega)]
      simp only [List.map_cons, List.mem_cons, Ne.symm hx, false_or]

theorem contains_ok {s : St} {L : Seq} (r : R s L) (d : Ptr) :
    contains s d = some (decide (d ∈ L.map (·.2))) := by
  unfold contains
  by_cases hd : d = 0
  · rw [if_pos hd]
    have : d ∉ L.map (·.2) := by rw [hd]; exact r.dnz
    simp only [this, decide_false]
  · rw [if_neg hd]
    exact containsLoop_ok s d L _ _ r.seg r.nz (by rw [r.len]; omega)

theorem front_ok {s : St} {L : Seq} (r : R s L) : front s = some ((L.head?.map (·.2)).getD 0) := by
  unfold front
  cases L with
  | nil => rw [if_pos (by simpa using r.len)]; rfl
  | cons x L =>
    rw [if_neg (by rw [r.len]; simp)]
    obtain ⟨hh, n, hn, _⟩ := r.seg
    rw [hh, hn]; rfl

theorem back_ok {s : St} {L : Seq} (r : R s L) :
    back s = some ((L.getLast?.map (·.2)).getD 0) ∧
      backNode s = (L.getLast?.map (·.1)).getD 0 := by
  unfold back backNode
  rcases List.eq_nil_or_concat' L with rfl | ⟨L', z, rfl⟩
  · rw [if_pos (by simpa using r.len), if_pos (by simpa using r.len)]; exact ⟨rfl, rfl⟩
  · rw [if_neg (by rw [r.len]; simp), if_neg (by rw [r.len]; simp), r.tail]
    obtain ⟨m, _, hm, n, hn, _⟩ := Seg.append.mp r.seg
    simp [hn]

end Verif.CList
