import Verif.Allocator.Lemmas
namespace Verif.Allocator
open Verif.Hashmap (Ptr Cfg Map Ev Entry kv)
open Spec (Intact tinybird total)

theorem sum_zero {l : List Nat} (h : ∀ x ∈ l, x = 0) : l.sum = 0 := by
  induction l with
  | nil => rfl
  | cons y ys ih =>
    rw [List.sum_cons, h y (List.mem_cons_self ..), ih fun x hx => h x (List.mem_cons_of_mem _ hx)]

theorem sum_perm {a b : List Nat} (h : a.Perm b) : a.sum = b.sum := by
  induction h with
  | nil => rfl
  | cons x _ ih => simp only [List.sum_cons, ih]
  | swap x y l => simp only [List.sum_cons]; omega
  | trans _ _ h1 h2 => exact h1.trans h2

/-! ### disjoint blocks fit in the address space -/

/-- Bytes of block `b` below `N`. -/
def below (N : Nat) (b : Nat × Nat) : Nat := min N (b.1 + b.2) - min N b.1

theorem count_le_one {B : List (Nat × Nat)} (h : B.Pairwise (fun a b => disjB a b = true)) (N : Nat) :
    (B.map fun b => if b.1 ≤ N ∧ N < b.1 + b.2 then 1 else 0).sum ≤ 1 := by
  induction B with
  | nil => simp
  | cons b B ih =>
    rw [List.pairwise_cons] at h
    simp only [List.map_cons, List.sum_cons]
    by_cases hb : b.1 ≤ N ∧ N < b.1 + b.2
    · rw [if_pos hb]
      have : (B.map fun b => if b.1 ≤ N ∧ N < b.1 + b.2 then 1 else 0).sum = 0 := by
        apply sum_zero
        intro x hx
        obtain ⟨a, ha, rfl⟩ := List.mem_map.mp hx
        have := h.1 a ha
        simp only [disjB, Bool.or_eq_true, decide_eq_true_eq] at this
        rw [if_neg (by omega)]
      omega
    · rw [if_neg hb]
      have := ih h.2
      omega

theorem below_sum {B : List (Nat × Nat)} (h : B.Pairwise (fun a b => disjB a b = true)) (N : Nat) :
    (B.map (below N)).sum ≤ N := by
  induction N with
  | zero =>
    have : (B.map (below 0)).sum = 0 := by
      apply sum_zero
      intro x hx
      obtain ⟨a, ha, rfl⟩ := List.mem_map.mp hx
      simp [below]
    omega
  | succ N ih =>
    have e : (B.map (below (N + 1))).sum = (B.map (below N)).sum +
        (B.map fun b => if b.1 ≤ N ∧ N < b.1 + b.2 then 1 else 0).sum := by
      clear ih h
      induction B with
      | nil => rfl
      | cons b B ih =>
        simp only [List.map_cons, List.sum_cons, ih]
        have : below (N + 1) b = below N b + (if b.1 ≤ N ∧ N < b.1 + b.2 then 1 else 0) := by
          unfold below
          split <;> omega
        omega
    have := count_le_one h N
    omega

theorem disjoint_total {B : List (Nat × Nat)} (h : B.Pairwise (fun a b => disjB a b = true)) {N : Nat}
    (hN : ∀ b ∈ B, b.1 + b.2 ≤ N) : total B ≤ N := by
  have h1 := below_sum h N
  have h2 : B.map (below N) = B.map (·.2) := by
    apply List.map_congr_left
    intro b hb
    have := hN b hb
    unfold below
    omega
  rw [h2] at h1
  exact h1

/-! ### table lookups -/

theorem keys_ne {s : St} {m : Map} {L : List (Nat × Nat)} (h : Rel s m L) :
    L.Pairwise (fun a b => a.1 ≠ b.1) := by
  have := h.map.distinct
  exact this.imp (fun {a b} hab => by simpa [trackerCfg] using hab)

theorem find_of_mem {L : List (Nat × Nat)} (hd : L.Pairwise (fun a b => a.1 ≠ b.1)) {x : Nat × Nat}
    (hx : x ∈ L) : L.find? (fun p => p.1 == x.1) = some x := by
  induction L with
  | nil => cases hx
  | cons y ys ih =>
    rw [List.pairwise_cons] at hd
    rw [List.find?_cons]
    rcases List.mem_cons.mp hx with rfl | hx
    · simp
    · have := hd.1 x hx
      rw [beq_eq_false_iff_ne.mpr this]; exact ih hd.2 hx

theorem lookup_mem {s : St} {m : Map} {L : List (Nat × Nat)} (h : Rel s m L) {x : Nat × Nat}
    (hx : x ∈ L) : Hashmap.Spec.lookup trackerCfg.fnEq L x.1 = some x := find_of_mem (keys_ne h) hx

theorem lookup_not_mem {L : List (Nat × Nat)} {p : Nat} (hp : ∀ x ∈ L, x.1 ≠ p) :
    Hashmap.Spec.lookup trackerCfg.fnEq L p = none := by
  unfold Hashmap.Spec.lookup
  rw [List.find?_eq_none]
  intro x hx
  simpa [trackerCfg] using hp x hx

theorem get_mem {s : St} {m : Map} {L : List (Nat × Nat)} (h : Rel s m L) {x : Nat × Nat}
    (hx : x ∈ L) : Hashmap.get trackerCfg m x.1 = some (x.2, [.acquire, .release]) := by
  rw [Hashmap.get_ok trackerCfg_good h.map]
  unfold Hashmap.Spec.get
  rw [lookup_mem h hx]
  rfl

theorem get_not_mem {s : St} {m : Map} {L : List (Nat × Nat)} (h : Rel s m L) {p : Nat}
    (hp : ∀ x ∈ L, x.1 ≠ p) : Hashmap.get trackerCfg m p = some (0, [.acquire, .release]) := by
  rw [Hashmap.get_ok trackerCfg_good h.map]
  unfold Hashmap.Spec.get
  rw [lookup_not_mem hp]
  rfl

theorem map_ndv {L : List (Nat × Nat)} (h : (L.map (·.2)).Nodup) {x y : Nat × Nat} (hx : x ∈ L)
    (hy : y ∈ L) (e : x.2 = y.2) : x = y := by
  induction L with
  | nil => cases hx
  | cons z zs ih =>
    rw [List.map_cons, List.nodup_cons] at h
    rcases List.mem_cons.mp hx with hx' | hx' <;> rcases List.mem_cons.mp hy with hy' | hy'
    · rw [hx', hy']
    · subst hx'; exact absurd (by rw [e]; exact List.mem_map_of_mem hy') h.1
    · subst hy'; exact absurd (by rw [← e]; exact List.mem_map_of_mem hx') h.1
    · exact ih h.2 hx' hy'

/-- The raw blocks behind the table's entries are pairwise disjoint. -/
theorem blocks_disj {s : St} {m : Map} {L : List (Nat × Nat)} (h : Rel s m L) :
    (L.map fun kv => (kv.1 - 8, sz s kv.2 + 16)).Pairwise (fun a b => disjB a b = true) := by
  rw [List.pairwise_map]
  have hk := keys_ne h
  refine (List.Pairwise.and_mem.mp hk).imp ?_
  intro a b hab
  obtain ⟨ha, hb, hne⟩ := hab
  obtain ⟨ha8, ha⟩ := h.live a ha
  obtain ⟨hb8, hb⟩ := h.live b hb
  rcases raw_eq h ha hb with e | e
  · simp only [Prod.mk.injEq] at e; omega
  · exact e

theorem led_total_lt {s : St} {m : Map} {L : List (Nat × Nat)} (h : Rel s m L) :
    total (led s L) < 2 ^ 64 := by
  have h1 := disjoint_total (blocks_disj h) (N := 2 ^ 64 - 1) (by
    intro b hb
    obtain ⟨kv, hkv, rfl⟩ := List.mem_map.mp hb
    have := h.range _ (h.live kv hkv).2
    omega)
  have h2 : total (led s L) ≤ total (L.map fun kv => (kv.1 - 8, sz s kv.2 + 16)) := by
    clear h h1
    unfold total led
    induction L with
    | nil => simp
    | cons x xs ih => simp only [List.map_cons, List.sum_cons]; omega
  omega

/-! ### the leak check -/

/-- One visit of the leak check. -/
def visit (s : St) (acc : Res (Nat × List (Nat × Nat))) (p : Nat × Nat) :
    Res (Nat × List (Nat × Nat)) := (freedChecker s acc p.1 p.2).2

theorem visit_abort (s : St) (E : List (Nat × Nat)) : E.foldl (visit s) .abort = .abort := by
  induction E with
  | nil => rfl
  | cons x xs ih => exact ih

theorem visit_fold {s : St} {m : Map} {L : List (Nat × Nat)} (h : Rel s m L) (E : List (Nat × Nat)) :
    ∀ t, (∀ x ∈ E, x ∈ L) → t.1 < 2 ^ 64 →
    ((∀ b ∈ led s E, Intact s.mem b) →
      E.foldl (visit s) (.ok t) = .ok ((t.1 + total (led s E)) % 2 ^ 64, t.2 ++ led s E)) ∧
    ((¬ ∀ b ∈ led s E, Intact s.mem b) → E.foldl (visit s) (.ok t) = .abort) := by
  induction E with
  | nil =>
    intro t _ ht
    refine ⟨fun _ => ?_, fun hn => absurd (by simp [led]) hn⟩
    simp only [List.foldl_nil, led, total, List.map_nil, List.sum_nil, Nat.add_zero, Nat.mod_eq_of_lt ht, List.append_nil]
  | cons x xs ih =>
    intro t hE ht
    have hx := hE x (List.mem_cons_self ..)
    have hrec := h.recs x hx
    obtain ⟨h8, hraw⟩ := h.live x hx
    have hc := corruptionCheck_ok (s := s) (a := ⟨99, x.1, sz s x.2, false⟩) (by simp only; omega)
      (by simpa using hraw)
    simp only at hc
    have hled : led s (x :: xs) = (x.1, sz s x.2) :: led s xs := rfl
    rw [List.foldl_cons, hled]
    by_cases hi : Intact s.mem (x.1, sz s x.2)
    · have hv : visit s (.ok t) x = .ok ((t.1 + sz s x.2) % 2 ^ 64, t.2 ++ [(x.1, sz s x.2)]) := by
        unfold visit freedChecker
        simp only [Res.bind, hrec, hc.1 hi, Bool.false_eq_true, if_false]
      rw [hv]
      have ih' := ih ((t.1 + sz s x.2) % 2 ^ 64, t.2 ++ [(x.1, sz s x.2)])
        (fun y hy => hE y (List.mem_cons_of_mem _ hy)) (Nat.mod_lt _ (by decide))
      constructor
      · intro ha
        rw [ih'.1 (fun b hb => ha b (List.mem_cons_of_mem _ hb))]
        simp only [Nat.mod_add_mod, List.append_assoc, List.singleton_append, total, List.map_cons,
          List.sum_cons, Nat.add_assoc]
      · intro hn
        exact ih'.2 (fun ha => hn (fun b hb => by
          rcases List.mem_cons.mp hb with rfl | hb
          · exact hi
          · exact ha b hb))
    · have hv : visit s (.ok t) x = .abort := by
        unfold visit freedChecker
        simp only [Res.bind, hrec, hc.2 hi, Bool.false_eq_true, if_false]
      rw [hv, visit_abort]
      exact ⟨fun ha => absurd (ha _ (List.mem_cons_self ..)) hi, fun _ => rfl⟩

theorem expect_ok {s : St} {m : Map} {L : List (Nat × Nat)} (h : Rel s m L) :
    ((∀ b ∈ led s L, Intact s.mem b) →
      ∃ reports, expectNoAllocations s = .ok (total (led s L), reports) ∧ reports.Perm (led s L)) ∧
    ((¬ ∀ b ∈ led s L, Intact s.mem b) → expectNoAllocations s = .abort) := by
  obtain ⟨evs, h1⟩ := foreachAll_fold (freedChecker s) (fun _ _ _ => rfl) m m.bucketCount 0
    (.ok (0, [])) (by rw [h.map.inv.len]; omega)
  simp only [List.drop_zero] at h1
  have h2 : expectNoAllocations s = (m.buckets.flatten.map kv).foldl (visit s) (.ok (0, [])) := by
    unfold expectNoAllocations
    simp only [h.on]
    unfold Hashmap.foreach
    rw [h1]
    rfl
  have hp := h.map.perm
  have hv := visit_fold h (m.buckets.flatten.map kv) (0, []) (fun x hx => hp.mem_iff.mp hx) (by decide)
  have hpl : (led s (m.buckets.flatten.map kv)).Perm (led s L) := hp.map _
  have ht : total (led s (m.buckets.flatten.map kv)) = total (led s L) := sum_perm (hpl.map _)
  rw [h2]
  constructor
  · intro ha
    rw [hv.1 (fun b hb => ha b (hpl.mem_iff.mp hb)), ht]
    refine ⟨_, ?_, hpl⟩
    simp only [Nat.zero_add, List.nil_append, Nat.mod_eq_of_lt (led_total_lt h)]
  · intro hn
    exact hv.2 (fun ha => hn (fun b hb => ha b (hpl.mem_iff.mpr hb)))

end Verif.Allocator
