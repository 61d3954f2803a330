import Verif.Allocator.Spec
import Verif.Hashmap.Props
namespace Verif.Allocator
open Verif.Hashmap (Ptr Cfg Map Ev Entry kv)
open Spec (Intact tinybird total)

theorem trackerCfg_good : Hashmap.Spec.GoodCfg trackerCfg := by
  refine ⟨?_, ?_, ?_, ?_⟩ <;> simp [trackerCfg]

theorem canary_eq : canary = tinybird := by decide

@[simp] theorem canarySize_eq : canarySize = 8 := rfl

/-- Size recorded at record address `q`. -/
def sz (s : St) (q : Nat) : Nat := match s.recs q with | some a => a.size | none => 0

/-- The ledger a table content stands for. -/
def led (s : St) (L : List (Nat × Nat)) : List (Nat × Nat) := L.map fun kv => (kv.1, sz s kv.2)

/-- The state invariant while the tracker is on. -/
structure Rel (s : St) (m : Map) (L : List (Nat × Nat)) : Prop where
  on : s.allocations = some m
  map : Hashmap.R trackerCfg m L
  nz : ∀ kv ∈ L, kv.2 ≠ 0
  recs : ∀ kv ∈ L, s.recs kv.2 = some ⟨99, kv.1, sz s kv.2, false⟩
  ndv : (L.map (·.2)).Nodup
  live : ∀ kv ∈ L, 8 < kv.1 ∧ (kv.1 - 8, sz s kv.2 + 16) ∈ s.raw
  disj : s.raw.Pairwise (fun a b => disjB a b = true)
  range : ∀ b ∈ s.raw, b.1 ≠ 0 ∧ b.1 + max b.2 1 < 2 ^ 64
  only : ∀ q, s.recs q ≠ none → q ∈ L.map (·.2)

theorem disjB_symm {a b : Nat × Nat} (h : disjB a b = true) : disjB b a = true := by
  simp only [disjB, Bool.or_eq_true, decide_eq_true_eq] at *; omega

theorem raw_eq {s : St} {m : Map} {L : List (Nat × Nat)} (h : Rel s m L) {a b : Nat × Nat}
    (ha : a ∈ s.raw) (hb : b ∈ s.raw) : a = b ∨ disjB a b = true := by
  have := h.disj
  clear h
  generalize s.raw = l at *
  induction l with
  | nil => cases ha
  | cons x xs ih =>
    rw [List.pairwise_cons] at this
    rcases List.mem_cons.mp ha with rfl | ha' <;> rcases List.mem_cons.mp hb with rfl | hb'
    · exact Or.inl rfl
    · exact Or.inr (this.1 _ hb')
    · exact Or.inr (disjB_symm (this.1 _ ha'))
    · exact ih ha' hb' this.2

/-! ### the table's iteration is a fold -/

theorem foreachChain_fold {σ : Type} (cb : σ → Ptr → Ptr → Bool × σ)
    (hcb : ∀ st k v, (cb st k v).1 = true) (ch : List Entry) :
    ∀ st, (Hashmap.foreachChain cb ch st).1 =
      (ch.map kv).foldl (fun st p => (cb st p.1 p.2).2) st := by
  induction ch with
  | nil => intro st; rfl
  | cons e es ih =>
    intro st
    unfold Hashmap.foreachChain
    simp only [hcb, Bool.true_eq_false, if_false, ih]
    rfl

theorem foreachAll_fold {σ : Type} (cb : σ → Ptr → Ptr → Bool × σ)
    (hcb : ∀ st k v, (cb st k v).1 = true) (m : Map) (cnt : Nat) :
    ∀ i st, i + cnt = m.buckets.length → ∃ evs, Hashmap.foreachAll cb m cnt i st =
      some (((m.buckets.drop i).flatten.map kv).foldl (fun st p => (cb st p.1 p.2).2) st, evs) := by
  induction cnt with
  | zero =>
    intro i st h
    refine ⟨[], ?_⟩
    rw [List.drop_of_length_le (by omega)]
    rfl
  | succ cnt ih =>
    intro i st h
    have hi : i < m.buckets.length := by omega
    obtain ⟨evs, h1⟩ := ih (i + 1) (Hashmap.foreachChain cb m.buckets[i] st).1 (by omega)
    refine ⟨(Hashmap.foreachChain cb m.buckets[i] st).2 ++ evs, ?_⟩
    unfold Hashmap.foreachAll
    simp only [List.getElem?_eq_getElem hi, Option.bind_eq_bind, Option.bind_some, h1]
    rw [List.drop_eq_getElem_cons hi, foreachChain_fold cb hcb]
    simp only [List.flatten_cons, List.map_append, List.foldl_append]

/-! ### canary check -/

theorem load_one {s : St} {a : Nat} (h : canAccess s a 1 = true) : load s a 1 = .ok [s.mem a] := by
  unfold load
  rw [if_pos (Or.inr h)]
  rfl

theorem canAccess_of_mem {s : St} {b : Nat × Nat} (hb : b ∈ s.raw) {a n : Nat} (h1 : b.1 ≤ a)
    (h2 : a + n ≤ b.1 + b.2) : canAccess s a n = true := by
  unfold canAccess
  rw [List.any_eq_true]
  exact ⟨b, hb, by simp [h1, h2]⟩

theorem checkLoop_ok (s : St) (x y : Nat) (cs : List UInt8) : ∀ i,
    (∀ j < cs.length, canAccess s (x + i + j) 1 = true ∧ canAccess s (y + i + j) 1 = true) →
    ((∀ j < cs.length, s.mem (x + i + j) = cs.getD j 0 ∧ s.mem (y + i + j) = cs.getD j 0) →
      checkLoop s x y i cs = .ok ()) ∧
    ((¬ ∀ j < cs.length, s.mem (x + i + j) = cs.getD j 0 ∧ s.mem (y + i + j) = cs.getD j 0) →
      checkLoop s x y i cs = .abort) := by
  induction cs with
  | nil => intro i _; exact ⟨fun _ => rfl, fun h => absurd (by simp) h⟩
  | cons c cs ih =>
    intro i hacc
    have h0 := hacc 0 (by simp)
    simp only [Nat.add_zero] at h0
    have key : checkLoop s x y i (c :: cs) =
        if s.mem (x + i) = c ∧ s.mem (y + i) = c then checkLoop s x y (i + 1) cs else .abort := by
      rw [checkLoop]
      simp only [load_one h0.1, load_one h0.2, Res.bind]
      by_cases h1 : s.mem (x + i) = c <;> by_cases h2 : s.mem (y + i) = c <;> simp [h1, h2]
    have ih' := ih (i + 1) (fun j hj => by
      have := hacc (j + 1) (by simpa using hj)
      simpa only [Nat.add_assoc, Nat.add_comm 1 j, Nat.add_left_comm] using this)
    have split : (∀ j < (c :: cs).length, s.mem (x + i + j) = (c :: cs).getD j 0 ∧
          s.mem (y + i + j) = (c :: cs).getD j 0) ↔
        (s.mem (x + i) = c ∧ s.mem (y + i) = c) ∧
          ∀ j < cs.length, s.mem (x + (i + 1) + j) = cs.getD j 0 ∧ s.mem (y + (i + 1) + j) = cs.getD j 0 := by
      constructor
      · intro h
        refine ⟨by simpa using h 0 (by simp), fun j hj => ?_⟩
        have := h (j + 1) (by simpa using hj)
        simpa only [Nat.add_assoc, Nat.add_comm 1 j, Nat.add_left_comm, List.getD_cons_succ] using this
      · rintro ⟨h1, h2⟩ j hj
        cases j with
        | zero => simpa using h1
        | succ j =>
          have := h2 j (by simpa using hj)
          simpa only [Nat.add_assoc, Nat.add_comm 1 j, Nat.add_left_comm, List.getD_cons_succ] using this
    rw [key]
    constructor
    · intro h
      rw [split] at h
      rw [if_pos h.1]
      exact ih'.1 h.2
    · intro h
      rw [split] at h
      by_cases h1 : s.mem (x + i) = c ∧ s.mem (y + i) = c
      · rw [if_pos h1]
        exact ih'.2 (fun h2 => h ⟨h1, h2⟩)
      · rw [if_neg h1]

theorem corruptionCheck_ok {s : St} {a : Rec} (h8 : 8 ≤ a.ptr)
    (hraw : (a.ptr - 8, a.size + 16) ∈ s.raw) :
    (Intact s.mem (a.ptr, a.size) → corruptionCheck s a = .ok ()) ∧
    (¬ Intact s.mem (a.ptr, a.size) → corruptionCheck s a = .abort) := by
  have h := checkLoop_ok s (a.ptr - 8) (a.ptr + a.size) canary 0 (by
    intro j hj
    have hj8 : j < 8 := hj
    constructor
    · exact canAccess_of_mem hraw (by simp only; omega) (by simp only; omega)
    · exact canAccess_of_mem hraw (by simp only; omega) (by simp only; omega))
  simp only [Nat.add_zero] at h
  rw [canary_eq] at h
  have e : (∀ j < tinybird.length, s.mem (a.ptr - 8 + j) = tinybird.getD j 0 ∧
      s.mem (a.ptr + a.size + j) = tinybird.getD j 0) ↔ Intact s.mem (a.ptr, a.size) := Iff.rfl
  rw [e] at h
  unfold corruptionCheck
  rw [canary_eq]
  exact h

end Verif.Allocator
