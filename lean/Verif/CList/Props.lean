import Verif.CList.Lemmas
/-!
# C21, C22: the linked list
-/
namespace Verif.CList
open Spec

theorem step_ok (cb : Bool) {s : St} {L : Seq} (r : R s L) (o : Op) (hv : Valid L o) :
    ∃ s', step cb s o = some (s', (Spec.step cb L o).2) ∧ R s' (Spec.step cb L o).1 := by
  have hb : ∀ (d : Ptr) (al : Option Addr),
      (decide ((Spec.step cb L (.append d al)).2.1 = 1)).toNat = (Spec.step cb L (.append d al)).2.1 ∧
      (decide ((Spec.step cb L (.prepend d al)).2.1 = 1)).toNat = (Spec.step cb L (.prepend d al)).2.1 ∧
      (Spec.step cb L (.append d al)).2.2 = [] ∧ (Spec.step cb L (.prepend d al)).2.2 = [] := by
    intro d al
    cases al <;> simp only [Spec.step] <;> (try split) <;> simp
  cases o with
  | append d al =>
    obtain ⟨s', h1, h2⟩ := append_ok r d al hv cb
    refine ⟨s', ?_, h2⟩
    simp only [step, h1, Option.map_some, (hb d al).1]
    exact congrArg some (Prod.ext rfl (Prod.ext rfl (hb d al).2.2.1.symm))
  | prepend d al =>
    obtain ⟨s', h1, h2⟩ := prepend_ok r d al hv cb
    refine ⟨s', ?_, h2⟩
    simp only [step, h1, Option.map_some, (hb d al).2.1]
    exact congrArg some (Prod.ext rfl (Prod.ext rfl (hb d al).2.2.2.symm))
  | insertAfter p d al =>
    obtain ⟨s', h1, h2⟩ := insertAfter_ok r p d al hv cb
    refine ⟨s', ?_, h2⟩
    simp only [step, h1, Option.map_some]
    cases al <;> simp only [Spec.step] <;> (try split) <;> simp
  | remove d =>
    obtain ⟨s', h1, h2⟩ := remove_ok cb r d
    refine ⟨s', ?_, ?_⟩
    · simp only [step, h1, Option.map_some, Spec.step]
      by_cases h : d ∈ L.map (·.2) <;> simp only [h] <;> simp
    · simp only [Spec.step]
      by_cases h : d ∈ L.map (·.2)
      · rw [if_pos h] at h2 ⊢; exact h2
      · rw [if_neg h] at h2 ⊢; exact h2
  | clear =>
    obtain ⟨s', h1, h2⟩ := clear_ok cb r
    exact ⟨s', by simp [step, h1, Spec.step], h2⟩
  | length => exact ⟨s, by simp [step, Spec.step, r.len], r⟩
  | front => exact ⟨s, by simp [step, Spec.step, front_ok r], r⟩
  | back => exact ⟨s, by simp [step, Spec.step, (back_ok r).1], r⟩
  | backNode => exact ⟨s, by simp [step, Spec.step, (back_ok r).2], r⟩
  | contains d => exact ⟨s, by simp [step, Spec.step, contains_ok r], r⟩

theorem run_ok (cb : Bool) (ops : List Op) :
    ∀ {s : St} {L : Seq}, R s L → ValidRun cb L ops →
      ∃ s', run cb s ops = some (s', (Spec.run cb L ops).2) ∧ R s' (Spec.run cb L ops).1 := by
  induction ops with
  | nil => intro s L r _; exact ⟨s, rfl, r⟩
  | cons o os ih =>
    intro s L r hv
    obtain ⟨s1, h1, h2⟩ := step_ok cb r o hv.1
    obtain ⟨s2, h3, h4⟩ := ih h2 hv.2
    refine ⟨s2, ?_, h4⟩
    unfold run
    simp only [h1, h3]
    rfl

/-- **C21.** Every history of calls on a new list (any data, any addresses from the allocator, any
allocation failures, `list_insert_after` on a node of the list) terminates, never touches a freed or
unallocated node, and answers exactly as the mathematical list does — including which data is passed
to the free callback and when (`Spec.step`'s third component). -/
theorem history_is_sequence (cb : Bool) (ops : List Op) (hv : ValidRun cb [] ops) :
    ∃ s', run cb new ops = some (s', (Spec.run cb [] ops).2) := by
  obtain ⟨s', h, _⟩ := run_ok cb ops R_new hv
  exact ⟨s', h⟩

/-- States reachable by a valid history, with the sequence they stand for. -/
def Reach (cb : Bool) (s : St) (L : Seq) : Prop :=
  ∃ ops rs, ValidRun cb [] ops ∧ run cb new ops = some (s, rs) ∧ L = (Spec.run cb [] ops).1

theorem Reach.rep {cb : Bool} {s : St} {L : Seq} (h : Reach cb s L) : R s L := by
  obtain ⟨ops, rs, h1, h2, h3⟩ := h
  obtain ⟨s', h4, h5⟩ := run_ok cb ops R_new h1
  rw [h2] at h4
  simp only [Option.some.injEq, Prod.mk.injEq] at h4
  rw [h3, h4.1]; exact h5

/-- Walking with `list_begin`/`list_next` yields the elements in order and ends at NULL after exactly
`list_length` steps. -/
theorem walk_in_order (cb : Bool) (s : St) (L : Seq) (h : Reach cb s L) :
    (∀ i (hi : i < L.length), ∃ n, s.heap L[i].1 = some n ∧ n.data = L[i].2 ∧
      next s L[i].1 = some ((L[i + 1]?.map (·.1)).getD 0)) ∧
    s.head = (L.head?.map (·.1)).getD 0 ∧ s.length = L.length := by
  have r := h.rep
  have key : ∀ (L : Seq) (p : Addr), Seg s.heap p L 0 → 0 ∉ L.map (·.1) →
      p = (L.head?.map (·.1)).getD 0 ∧
      ∀ i (hi : i < L.length), ∃ n, s.heap L[i].1 = some n ∧ n.data = L[i].2 ∧
      next s L[i].1 = some ((L[i + 1]?.map (·.1)).getD 0) := by
    intro L
    induction L with
    | nil => intro p hs _; exact ⟨hs, by intro i hi; simp at hi⟩
    | cons x L ih =>
      intro p hs hnz
      obtain ⟨h1, n, h2, h3⟩ := hs
      simp only [List.map_cons, List.mem_cons, not_or] at hnz
      obtain ⟨h4, h5⟩ := ih n h3 hnz.2
      refine ⟨by simpa using h1, ?_⟩
      intro i hi
      cases i with
      | zero =>
        refine ⟨_, h2, rfl, ?_⟩
        unfold next
        simp only [List.getElem_cons_zero]
        rw [if_neg (Ne.symm hnz.1), h2]
        simp only [Option.map_some, h4]
        rw [List.head?_eq_getElem?]; rfl
      | succ i =>
        have := h5 i (by simpa using hi)
        simpa using this
  exact ⟨(key L s.head r.seg r.nz).2, (key L s.head r.seg r.nz).1, r.len⟩

/-- No leak and no dangling node: the live nodes are exactly the nodes of the sequence. -/
theorem live_nodes_exact (cb : Bool) (s : St) (L : Seq) (h : Reach cb s L) (a : Addr) :
    s.heap a ≠ none ↔ a ∈ L.map (·.1) := by
  refine ⟨h.rep.only a, fun ha => ?_⟩
  obtain ⟨i, hi, hx⟩ := List.mem_iff_getElem.mp ha
  obtain ⟨n, hn, _⟩ := (walk_in_order cb s L h).1 i (by simpa using hi)
  rw [List.getElem_map] at hx
  rw [← hx, hn]; simp

/-! ## list_foreach -/

/-- Calls made by an iteration that stops at the first element on which `p` is false. -/
def upto (p : Ptr → Bool) : List Ptr → List Ptr
  | [] => []
  | d :: ds => if p d then d :: upto p ds else [d]

/-- **C21** (foreach). A callback that only looks at the data (`p`) is called on the elements in
order, up to and including the first one on which it returns false; the node of that element is
returned, NULL if there is none; the list is unchanged. -/
theorem foreach_stops (cb : Bool) (s : St) (L : Seq) (h : Reach cb s L) (p : Ptr → Bool) :
    foreach (σ := Unit) (fun _ s d => some (p d, (), s)) () s =
      some (s, (), ((L.find? (fun x => !p x.2)).map (·.1)).getD 0, upto p (L.map (·.2))) := by
  have r := h.rep
  have key : ∀ (L : Seq) (fuel : Nat) (node : Addr), Seg s.heap node L 0 → 0 ∉ L.map (·.1) →
      L.length < fuel →
      foreachLoop (σ := Unit) (fun _ s d => some (p d, (), s)) fuel () s node =
        some (s, (), ((L.find? (fun x => !p x.2)).map (·.1)).getD 0, upto p (L.map (·.2))) := by
    intro L
    induction L with
    | nil =>
      intro fuel node hs _ hf
      obtain ⟨f, rfl⟩ : ∃ f, fuel = f + 1 := ⟨fuel - 1, by simp at hf; omega⟩
      unfold foreachLoop
      rw [if_pos (show node = 0 from hs)]; rfl
    | cons x L ih =>
      intro fuel node hs hnz hf
      obtain ⟨f, rfl⟩ : ∃ f, fuel = f + 1 := ⟨fuel - 1, by simp at hf; omega⟩
      obtain ⟨hh, n, hn, hs2⟩ := hs
      simp only [List.map_cons, List.mem_cons, not_or] at hnz
      unfold foreachLoop
      rw [if_neg (by rw [hh]; exact Ne.symm hnz.1), hh, hn]
      simp only
      cases hp : p x.2 with
      | false => simp [hp, upto]
      | true =>
        simp only [ih f n hs2 hnz.2 (by simp at hf; omega), List.find?_cons, hp, Bool.not_true,
          List.map_cons, upto, if_true]
  exact key L _ _ r.seg r.nz (by rw [r.len]; omega)

/-- The filter callback: remove the current element when `p` says so. -/
def dropIf (cb : Bool) (p : Ptr → Bool) : List Ptr → St → Ptr → Option (Bool × List Ptr × St) :=
  fun freed s d =>
    if p d then (remove cb s d).map fun r => (true, freed ++ r.2.2, r.1)
    else some (true, freed, s)

theorem dropIf_loop (cb : Bool) (p : Ptr → Bool) (M : Seq) :
    ∀ (K : Seq) (fuel : Nat) (s : St) (node : Addr) (fr : List Ptr), R s (K ++ M) →
      (∀ x ∈ K, p x.2 = false) → Seg s.heap node M 0 → M.length < fuel →
      ∃ s', foreachLoop (dropIf cb p) fuel fr s node =
          some (s', fr ++ (if cb then (M.map (·.2)).filter p else []), 0, M.map (·.2)) ∧
        R s' (K ++ M.filter (fun x => !p x.2)) := by
  induction M with
  | nil =>
    intro K fuel s node fr r _ hs hf
    obtain ⟨f, rfl⟩ : ∃ f, fuel = f + 1 := ⟨fuel - 1, by simp at hf; omega⟩
    refine ⟨s, ?_, by simpa using r⟩
    unfold foreachLoop
    rw [if_pos (show node = 0 from hs)]; simp
  | cons x M ih =>
    intro K fuel s node fr r hK hs hf
    obtain ⟨f, rfl⟩ : ∃ f, fuel = f + 1 := ⟨fuel - 1, by simp at hf; omega⟩
    obtain ⟨hh, n, hn, hs2⟩ := hs
    have hnz := r.nz
    simp only [List.map_append, List.map_cons, List.mem_append, List.mem_cons, not_or] at hnz
    unfold foreachLoop
    rw [if_neg (by rw [hh]; exact Ne.symm hnz.2.1), hh, hn]
    simp only
    cases hp : p x.2 with
    | false =>
      obtain ⟨s', h1, h2⟩ := ih (K ++ [x]) f s n fr (by simpa using r)
        (by
          intro y hy
          rcases List.mem_append.mp hy with hy | hy
          · exact hK y hy
          · simp only [List.mem_singleton] at hy; rw [hy]; exact hp) hs2 (by simp at hf; omega)
      refine ⟨s', ?_, by simpa [hp] using h2⟩
      have : dropIf cb p fr s x.2 = some (true, fr, s) := by simp [dropIf, hp]
      rw [this]
      simp only [h1, List.map_cons, List.filter_cons, hp]
      simp
    | true =>
      obtain ⟨s1, e1, e2⟩ := remove_ok cb r x.2
      have hmem : x.2 ∈ (K ++ x :: M).map (·.2) := by simp
      have hxK : x.2 ∉ K.map (·.2) := by
        intro hx
        obtain ⟨y, hy, hyx⟩ := List.mem_map.mp hx
        have := hK y hy
        rw [hyx, hp] at this; cases this
      rw [if_pos hmem, deleteFirst_split rfl hxK] at e2
      rw [if_pos hmem] at e1
      -- the successor read before the removal is the start of the rest
      have hn2 : ∃ q, Seg s1.heap q M 0 := by
        obtain ⟨m, _, h⟩ := Seg.append.mp e2.seg; exact ⟨m, h⟩
      obtain ⟨q, hq⟩ := hn2
      have hqn : q = n := by
        cases M with
        | nil => exact hq.trans hs2.symm
        | cons y M => exact hq.1.trans hs2.1.symm
      rw [hqn] at hq
      obtain ⟨s', h1, h2⟩ := ih K f s1 n (fr ++ if cb = true then [x.2] else []) e2 hK hq
        (by simp at hf; omega)
      refine ⟨s', ?_, by simpa [hp] using h2⟩
      have : dropIf cb p fr s x.2 = some (true, fr ++ (if cb = true then [x.2] else []), s1) := by
        simp [dropIf, hp, e1]
      rw [this]
      simp only [h1, List.map_cons, List.filter_cons, hp]
      cases cb <;> simp

/-- **C21/C22** (removal while iterating). A callback that removes the current element from the list
it is iterating over is safe: no freed node is touched, every original element is visited once in
order, and exactly the selected ones are gone (each given to the free callback once) afterwards. -/
theorem foreach_remove_current_safe (cb : Bool) (s : St) (L : Seq) (h : Reach cb s L)
    (p : Ptr → Bool) :
    ∃ s', foreach (dropIf cb p) [] s =
        some (s', (if cb then (L.map (·.2)).filter p else []), 0, L.map (·.2)) ∧
      s'.length = (L.filter (fun x => !p x.2)).length ∧
      (∀ d, contains s' d = some (decide (d ∈ (L.filter (fun x => !p x.2)).map (·.2)))) := by
  have r := h.rep
  obtain ⟨s', h1, h2⟩ := dropIf_loop cb p L [] (s.length + 1) s s.head [] (by simpa using r)
    (by simp) r.seg (by rw [r.len]; omega)
  simp only [List.nil_append] at h1 h2
  exact ⟨s', h1, h2.len, fun d => contains_ok h2 d⟩

/-! ## C22: ownership -/

theorem count_deleteFirst (d : Ptr) (L : Seq) (h : d ∈ L.map (·.2)) (p : Ptr) :
    (L.map (·.2)).count p = ([d] : List Ptr).count p + ((deleteFirst d L).map (·.2)).count p := by
  induction L with
  | nil => simp at h
  | cons x L ih =>
    simp only [deleteFirst]
    by_cases hx : x.2 = d
    · rw [if_pos hx, List.map_cons, hx, ← List.singleton_append, List.count_append]
    · rw [if_neg hx]
      rw [List.map_cons, List.mem_cons] at h
      have := ih (h.resolve_left (Ne.symm hx))
      simp only [List.map_cons, List.count_cons, List.count_nil] at this ⊢
      omega

theorem count_insertBehind (q : Addr) (x : Addr × Ptr) (L : Seq) (h : q ∈ L.map (·.1)) (p : Ptr) :
    ((insertBehind q x L).map (·.2)).count p = ([x.2] : List Ptr).count p + (L.map (·.2)).count p := by
  induction L with
  | nil => simp at h
  | cons y L ih =>
    simp only [insertBehind]
    by_cases hy : y.1 = q
    · rw [if_pos hy]
      simp only [List.map_cons, List.count_cons, List.count_nil]; omega
    · rw [if_neg hy]
      rw [List.map_cons, List.mem_cons] at h
      have := ih (h.resolve_left (Ne.symm hy))
      simp only [List.map_cons, List.count_cons, List.count_nil] at this ⊢
      omega

theorem ledger_step (L : Seq) (o : Op) (hv : Valid L o) (p : Ptr) :
    (takes L o).count p + (L.map (·.2)).count p =
      ((Spec.step true L o).2.2).count p + ((Spec.step true L o).1.map (·.2)).count p := by
  cases o with
  | append d al =>
    cases al with
    | none => simp [takes, Spec.step]
    | some a =>
      by_cases hd : d = 0
      · simp [takes, Spec.step, hd]
      · simp only [takes, Spec.step, if_neg hd, List.map_append, List.count_append, List.map_cons,
          List.map_nil, List.count_nil]
        omega
  | prepend d al =>
    cases al with
    | none => simp [takes, Spec.step]
    | some a =>
      by_cases hd : d = 0
      · simp [takes, Spec.step, hd]
      · simp only [takes, Spec.step, if_neg hd, List.map_cons, List.count_cons, List.count_nil]
        omega
  | insertAfter q d al =>
    cases al with
    | none => simp [takes, Spec.step]
    | some a =>
      by_cases hd : q = 0 ∨ d = 0
      · simp only [takes, Spec.step, if_pos hd]
      · have hq := hv.2.resolve_left (not_or.mp hd).1
        simp only [takes, Spec.step, if_neg hd, if_pos hq]
        rw [count_insertBehind q (a, d) L hq p]; simp
  | remove d =>
    by_cases hd : d ∈ L.map (·.2)
    · simp only [takes, Spec.step, if_pos hd, if_true]
      rw [count_deleteFirst d L hd p]; simp
    · simp only [takes, Spec.step, if_neg hd]
  | clear => simp [takes, Spec.step]
  | length => simp [takes, Spec.step]
  | front => simp [takes, Spec.step]
  | back => simp [takes, Spec.step]
  | backNode => simp [takes, Spec.step]
  | contains d => simp [takes, Spec.step]

theorem ledger_run (ops : List Op) : ∀ (L : Seq), ValidRun true L ops → ∀ p,
    (taken true L ops).count p + (L.map (·.2)).count p =
      (((Spec.run true L ops).2.map (·.2)).flatten).count p +
        ((Spec.run true L ops).1.map (·.2)).count p := by
  induction ops with
  | nil => intro L _ p; simp [taken, Spec.run]
  | cons o os ih =>
    intro L hv p
    have h1 := ledger_step L o hv.1 p
    have h2 := ih _ hv.2 p
    simp only [taken, Spec.run, List.map_cons, List.flatten_cons, List.count_append] at h2 ⊢
    omega

/-- **C22.** With a free callback installed, over any history on a new list: each data pointer was
handed over exactly as many times as it was passed to the callback plus the number of times it is
still in the list (so: once per element that left, never while it is in the list).  `list_free` is
`list_clear`, after which nothing remains. -/
theorem free_callback_exactly_once (ops : List Op) (hv : ValidRun true [] ops) :
    ∃ s' rs, run true new ops = some (s', rs) ∧
      (∀ p, (taken true [] ops).count p = ((rs.map (·.2)).flatten).count p +
        ((Spec.run true [] ops).1.map (·.2)).count p) ∧
      ∃ s'' evs, clear true s' = some (s'', evs) ∧ evs = (Spec.run true [] ops).1.map (·.2) ∧
        (∀ a, s''.heap a = none) := by
  obtain ⟨s', h1, h2⟩ := run_ok true ops R_new hv
  obtain ⟨s'', h3, h4⟩ := clear_ok true h2
  refine ⟨s', _, h1, ?_, s'', _, h3, by simp, ?_⟩
  · intro p
    have := ledger_run ops [] hv p
    simpa using this
  · intro a
    by_contra hh
    simpa using h4.only a hh

/-- Without a callback nothing is ever freed but nodes. -/
theorem no_callback_no_free (ops : List Op) (hv : ValidRun false [] ops) :
    ∃ s' rs, run false new ops = some (s', rs) ∧ ∀ r ∈ rs, r.2 = [] := by
  obtain ⟨s', h1, _⟩ := run_ok false ops R_new hv
  suffices key : ∀ (ops : List Op) (L : Seq), ∀ r ∈ (Spec.run false L ops).2, r.2 = [] from
    ⟨s', _, h1, key ops []⟩
  intro ops
  induction ops with
  | nil => simp [Spec.run]
  | cons o os ih =>
    intro L r hr
    simp only [Spec.run, List.mem_cons] at hr
    rcases hr with rfl | hr
    · cases o with
      | append d al => cases al <;> simp only [Spec.step] <;> (try split) <;> rfl
      | prepend d al => cases al <;> simp only [Spec.step] <;> (try split) <;> rfl
      | insertAfter p d al => cases al <;> simp only [Spec.step] <;> (try split) <;> rfl
      | remove d => simp only [Spec.step]; split <;> simp
      | _ => simp [Spec.step]
    · exact ih _ _ hr

/-! ### Witness: a history with every operation, including reuse of a freed address -/

def demo : List Op :=
  [.append 5 (some 100), .append 6 (some 101), .prepend 4 (some 102), .insertAfter 100 9 (some 103),
   .append 7 none, .append 0 (some 104), .remove 5, .append 6 (some 100), .remove 6, .remove 8,
   .length, .front, .back, .backNode, .contains 6, .contains 5]

example : ValidRun true [] demo := by
  simp [ValidRun, Valid, FreshFor, Spec.step, demo, insertBehind, deleteFirst]

example : (run true new demo).map (·.2) =
    some [(1, []), (1, []), (1, []), (1, []), (0, []), (0, []), (1, [5]), (1, []), (1, [6]),
      (0, []), (3, []), (4, []), (6, []), (100, []), (1, []), (0, [])] := by
  decide +kernel

example : (Spec.run true [] demo).1 = [(102, 4), (103, 9), (100, 6)] := by decide +kernel

end Verif.CList
