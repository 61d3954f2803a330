import Verif.IniParser.Spec
/-! # Documents as lists of sections, and the parser's representation of them -/
namespace Verif.IniParser
open Spec

theorem lower_eq (c : Byte) : lower c = lowerCase c := by
  have h : ∀ i : Fin 256, lower (UInt8.ofFin i) = lowerCase (UInt8.ofFin i) := by decide +kernel
  exact h c.toFin

theorem ciEq_iff {a b : List Byte} : ciEq a b = true ↔ norm a = norm b := by
  have : lower = lowerCase := funext lower_eq
  simp [ciEq, norm, this]

/-- contents: sections with their entries, in order -/
abbrev LDoc := List (List Byte × List KV)

/-- the parser's contents -/
def docOf (p : Parser) : LDoc := p.secs.map fun s => (s.name, s.kvs)

def hasL (D : LDoc) (n : List Byte) : Bool := D.any fun x => norm x.1 == n

def valK (kvs : List KV) (k : List Byte) : Option (List Byte) :=
  (kvs.find? fun kv => norm kv.key == k).map (·.value)

def valL (D : LDoc) (n k : List Byte) : Option (List Byte) :=
  (D.find? fun x => norm x.1 == n).bind fun x => valK x.2 k

def putK (k v : List Byte) : List KV → List KV
  | [] => [⟨k, v⟩]
  | kv :: kvs => if norm kv.key = norm k then { kv with value := v } :: kvs else kv :: putK k v kvs

def putL (s k v : List Byte) : LDoc → LDoc
  | [] => [(s, [⟨k, v⟩])]
  | x :: D => if norm x.1 = norm s then (x.1, putK k v x.2) :: D else x :: putL s k v D

def updL (s : List Byte) (f : List KV → List KV) : LDoc → LDoc
  | [] => []
  | x :: D => if norm x.1 = norm s then (x.1, f x.2) :: D else x :: updL s f D

def delK (k : List Byte) : List KV → List KV
  | [] => []
  | kv :: kvs => if norm kv.key = norm k then kvs else kv :: delK k kvs

def delL (s : List Byte) : LDoc → LDoc
  | [] => []
  | x :: D => if norm x.1 = norm s then D else x :: delL s D

/-- invariant of the contents: no two sections, no two keys of a section with the same name -/
structure UniqL (D : LDoc) : Prop where
  secs : D.Pairwise fun a b => norm a.1 ≠ norm b.1
  keys : ∀ x ∈ D, x.2.Pairwise fun a b => norm a.key ≠ norm b.key

/-! ### list level laws -/

theorem valK_putK (k v : List Byte) (kvs : List KV) (k' : List Byte) :
    valK (putK k v kvs) k' = if k' = norm k then some v else valK kvs k' := by
  induction kvs with
  | nil =>
    unfold putK valK
    by_cases h : k' = norm k
    · simp [h]
    · have : ¬ norm k = k' := fun e => h e.symm
      simp [h, this]
  | cons kv kvs ih =>
    unfold putK
    by_cases h : norm kv.key = norm k
    · rw [if_pos h]
      unfold valK
      by_cases h' : k' = norm k
      · simp [h', h]
      · have : ¬ norm kv.key = k' := fun e => h' (by rw [← e, h])
        simp [h', this]
    · rw [if_neg h]
      unfold valK at ih ⊢
      by_cases h' : norm kv.key = k'
      · have : ¬ k' = norm k := fun e => h (by rw [h', e])
        simp [h', this]
      · simp only [List.find?_cons, beq_eq_false_iff_ne.mpr h']
        exact ih

theorem hasL_cons (x : List Byte × List KV) (D : LDoc) (n : List Byte) :
    hasL (x :: D) n = (norm x.1 == n || hasL D n) := by simp [hasL]

theorem valL_cons (x : List Byte × List KV) (D : LDoc) (n k : List Byte) :
    valL (x :: D) n k = if norm x.1 = n then valK x.2 k else valL D n k := by
  unfold valL
  rw [List.find?_cons]
  by_cases h : norm x.1 = n
  · simp [h]
  · simp [beq_eq_false_iff_ne.mpr h, h]

theorem hasL_putL (s k v : List Byte) (D : LDoc) (n : List Byte) :
    hasL (putL s k v D) n = (n == norm s || hasL D n) := by
  induction D with
  | nil => simp [putL, hasL, Bool.beq_comm]
  | cons x D ih =>
    unfold putL
    by_cases h : norm x.1 = norm s
    · rw [if_pos h, hasL_cons, hasL_cons]
      simp only [h, Bool.beq_comm (a := n)]
      cases norm s == n <;> rfl
    · rw [if_neg h, hasL_cons, hasL_cons, ih]
      cases norm x.1 == n <;> cases n == norm s <;> rfl

theorem valL_putL (s k v : List Byte) (D : LDoc) (n k' : List Byte) :
    valL (putL s k v D) n k' = if n = norm s ∧ k' = norm k then some v else valL D n k' := by
  induction D with
  | nil =>
    unfold putL
    rw [valL_cons]
    by_cases h : norm s = n
    · have := valK_putK k v [] k'
      simp only [putK] at this
      simp only [h, if_true, this, true_and]
      rfl
    · have h' : ¬ n = norm s := fun e => h e.symm
      simp [h, h']
  | cons x D ih =>
    unfold putL
    by_cases h : norm x.1 = norm s
    · rw [if_pos h, valL_cons, valL_cons]
      by_cases h2 : norm x.1 = n
      · have : n = norm s := by rw [← h2, h]
        simp only [h2, if_true, valK_putK, this, true_and]
      · have : ¬ n = norm s := fun e => h2 (by rw [h, e])
        simp only [h2, if_false, this, false_and]
    · rw [if_neg h, valL_cons, valL_cons, ih]
      by_cases h2 : norm x.1 = n
      · have : ¬ n = norm s := fun e => h (by rw [h2, e])
        simp only [h2, if_true, this, false_and, if_false]
      · simp only [h2, if_false]

theorem putK_keys (k v : List Byte) (kvs : List KV) :
    (putK k v kvs).map (fun kv => norm kv.key) =
      if (kvs.any fun kv => norm kv.key == norm k) then kvs.map (fun kv => norm kv.key)
      else kvs.map (fun kv => norm kv.key) ++ [norm k] := by
  induction kvs with
  | nil => simp [putK]
  | cons kv kvs ih =>
    unfold putK
    by_cases h : norm kv.key = norm k
    · simp [h]
    · rw [if_neg h, List.map_cons, ih, List.any_cons, beq_eq_false_iff_ne.mpr h, Bool.false_or, List.map_cons]
      split <;> simp

theorem putL_names (s k v : List Byte) (D : LDoc) :
    (putL s k v D).map (fun x => norm x.1) =
      if hasL D (norm s) then D.map (fun x => norm x.1) else D.map (fun x => norm x.1) ++ [norm s] := by
  induction D with
  | nil => simp [putL, hasL]
  | cons x D ih =>
    unfold putL
    by_cases h : norm x.1 = norm s
    · simp [h, hasL]
    · rw [if_neg h, List.map_cons, ih, hasL_cons, beq_eq_false_iff_ne.mpr h, Bool.false_or, List.map_cons]
      split <;> simp

theorem mem_putL {s k v : List Byte} {D : LDoc} {y : List Byte × List KV} (h : y ∈ putL s k v D) :
    y ∈ D ∨ (∃ x ∈ D, y = (x.1, putK k v x.2)) ∨ y = (s, [⟨k, v⟩]) := by
  induction D with
  | nil => simp [putL] at h; exact .inr (.inr h)
  | cons x D ih =>
    unfold putL at h
    by_cases hx : norm x.1 = norm s
    · rw [if_pos hx] at h
      rcases List.mem_cons.mp h with h | h
      · exact .inr (.inl ⟨x, by simp, h⟩)
      · exact .inl (by simp [h])
    · rw [if_neg hx] at h
      rcases List.mem_cons.mp h with h | h
      · exact .inl (by simp [h])
      · rcases ih h with h | ⟨z, hz, e⟩ | h
        · exact .inl (by simp [h])
        · exact .inr (.inl ⟨z, by simp [hz], e⟩)
        · exact .inr (.inr h)

theorem uniq_keys_putK {k v : List Byte} {kvs : List KV} (h : kvs.Pairwise fun a b => norm a.key ≠ norm b.key) :
    (putK k v kvs).Pairwise fun a b => norm a.key ≠ norm b.key := by
  rw [← List.pairwise_map (f := fun kv : KV => norm kv.key) (R := (· ≠ ·))] at h ⊢
  rw [putK_keys]
  split
  · exact h
  · rename_i hc
    rw [List.pairwise_append]
    refine ⟨h, by simp, ?_⟩
    intro a ha b hb
    simp only [List.mem_singleton] at hb
    subst hb
    intro e
    apply hc
    rw [List.any_eq_true]
    obtain ⟨kv, hkv, e2⟩ := List.mem_map.mp ha
    exact ⟨kv, hkv, by simp [e2, e]⟩

theorem uniq_putL {s k v : List Byte} {D : LDoc} (h : UniqL D) : UniqL (putL s k v D) := by
  constructor
  · have h1 := h.secs
    rw [← List.pairwise_map (f := fun x : List Byte × List KV => norm x.1) (R := (· ≠ ·))] at h1 ⊢
    rw [putL_names]
    split
    · exact h1
    · rename_i hc
      rw [List.pairwise_append]
      refine ⟨h1, by simp, ?_⟩
      intro a ha b hb
      simp only [List.mem_singleton] at hb
      subst hb
      intro e
      apply hc
      unfold hasL
      rw [List.any_eq_true]
      obtain ⟨x, hx, e2⟩ := List.mem_map.mp ha
      exact ⟨x, hx, by simp [e2, e]⟩
  · intro y hy
    rcases mem_putL hy with hy | ⟨x, hx, rfl⟩ | rfl
    · exact h.keys y hy
    · exact uniq_keys_putK (h.keys x hx)
    · simp

theorem valK_none {kvs : List KV} {n : List Byte} (h : ∀ kv ∈ kvs, norm kv.key ≠ n) : valK kvs n = none := by
  unfold valK
  rw [Option.map_eq_none_iff, List.find?_eq_none]
  intro kv hkv; simpa using h kv hkv

theorem valK_delK {k : List Byte} {kvs : List KV} (h : kvs.Pairwise fun a b => norm a.key ≠ norm b.key)
    (k' : List Byte) : valK (delK k kvs) k' = if k' = norm k then none else valK kvs k' := by
  induction kvs with
  | nil => simp [delK, valK]
  | cons kv kvs ih =>
    rw [List.pairwise_cons] at h
    unfold delK
    by_cases hk : norm kv.key = norm k
    · rw [if_pos hk]
      by_cases h' : k' = norm k
      · rw [if_pos h', h']
        exact valK_none fun x hx => by rw [← hk]; exact fun e => h.1 x hx e.symm
      · rw [if_neg h']
        unfold valK
        have : ¬ norm kv.key = k' := fun e => h' (by rw [← e, hk])
        simp [this]
    · rw [if_neg hk]
      have ih := ih h.2
      unfold valK at ih ⊢
      by_cases h' : norm kv.key = k'
      · have : ¬ k' = norm k := fun e => hk (by rw [h', e])
        simp [h', this]
      · simp only [List.find?_cons, beq_eq_false_iff_ne.mpr h']
        exact ih

theorem hasL_updL (s : List Byte) (f : List KV → List KV) (D : LDoc) (n : List Byte) :
    hasL (updL s f D) n = hasL D n := by
  induction D with
  | nil => rfl
  | cons x D ih =>
    unfold updL
    split
    · simp [hasL_cons]
    · rw [hasL_cons, hasL_cons, ih]

theorem valL_updL (s : List Byte) (f : List KV → List KV) (D : LDoc) (n k : List Byte) :
    valL (updL s f D) n k =
      if n = norm s then (D.find? fun x => norm x.1 == n).bind (fun x => valK (f x.2) k) else valL D n k := by
  induction D with
  | nil => simp [updL, valL]
  | cons x D ih =>
    unfold updL
    by_cases h : norm x.1 = norm s
    · rw [if_pos h, valL_cons, valL_cons]
      by_cases h2 : norm x.1 = n
      · have : n = norm s := by rw [← h2, h]
        simp [h2, this]
      · have : ¬ n = norm s := fun e => h2 (by rw [h, e])
        simp only [h2, if_false, this]
    · rw [if_neg h, valL_cons, valL_cons, ih]
      by_cases h2 : norm x.1 = n
      · have : ¬ n = norm s := fun e => h (by rw [h2, e])
        simp only [h2, if_true, this, if_false]
      · simp only [h2, if_false, List.find?_cons, beq_eq_false_iff_ne.mpr h2]

theorem updL_names (s : List Byte) (f : List KV → List KV) (D : LDoc) :
    (updL s f D).map (fun x => x.1) = D.map (fun x => x.1) := by
  induction D with
  | nil => rfl
  | cons x D ih => unfold updL; split <;> simp [ih]

theorem delL_sublist (s : List Byte) (D : LDoc) : (delL s D).Sublist D := by
  induction D with
  | nil => simp [delL]
  | cons x D ih =>
    unfold delL; split
    · exact List.sublist_cons_self _ _
    · exact ih.cons_cons _

theorem delK_sublist (s : List Byte) (D : List KV) : (delK s D).Sublist D := by
  induction D with
  | nil => simp [delK]
  | cons x D ih =>
    unfold delK; split
    · exact List.sublist_cons_self _ _
    · exact ih.cons_cons _

theorem mem_updL {s : List Byte} {f : List KV → List KV} {D : LDoc} {y : List Byte × List KV}
    (h : y ∈ updL s f D) : y ∈ D ∨ ∃ x ∈ D, y = (x.1, f x.2) := by
  induction D with
  | nil => simp [updL] at h
  | cons x D ih =>
    unfold updL at h
    by_cases hx : norm x.1 = norm s
    · rw [if_pos hx] at h
      rcases List.mem_cons.mp h with h | h
      · exact .inr ⟨x, by simp, h⟩
      · exact .inl (by simp [h])
    · rw [if_neg hx] at h
      rcases List.mem_cons.mp h with h | h
      · exact .inl (by simp [h])
      · rcases ih h with h | ⟨z, hz, e⟩
        · exact .inl (by simp [h])
        · exact .inr ⟨z, by simp [hz], e⟩

theorem uniq_delK {s k : List Byte} {D : LDoc} (h : UniqL D) : UniqL (updL s (delK k) D) := by
  constructor
  · have h1 := h.secs
    rw [← List.pairwise_map (f := fun x : List Byte × List KV => x.1) (R := fun a b => norm a ≠ norm b)] at h1 ⊢
    rw [updL_names]; exact h1
  · intro y hy
    rcases mem_updL hy with hy | ⟨x, hx, rfl⟩
    · exact h.keys y hy
    · exact (h.keys x hx).sublist (delK_sublist _ _)

theorem uniq_delL {s : List Byte} {D : LDoc} (h : UniqL D) : UniqL (delL s D) :=
  ⟨h.secs.sublist (delL_sublist _ _), fun y hy => h.keys y ((delL_sublist _ _).subset hy)⟩

theorem hasL_false {D : LDoc} {n : List Byte} (h : ∀ x ∈ D, norm x.1 ≠ n) : hasL D n = false := by
  unfold hasL
  rw [List.any_eq_false]
  intro x hx; simpa using h x hx

theorem valL_none_of_not_has {D : LDoc} {n : List Byte} (h : hasL D n = false) (k : List Byte) :
    valL D n k = none := by
  unfold valL
  have : (D.find? fun x => norm x.1 == n) = none := by
    rw [List.find?_eq_none]
    unfold hasL at h
    rw [List.any_eq_false] at h
    exact h
  rw [this]; rfl

theorem hasL_delL {s : List Byte} {D : LDoc} (h : UniqL D) (n : List Byte) :
    hasL (delL s D) n = (n != norm s && hasL D n) := by
  induction D with
  | nil => simp [delL, hasL]
  | cons x D ih =>
    have h' : UniqL D := ⟨(List.pairwise_cons.mp h.secs).2, fun y hy => h.keys y (by simp [hy])⟩
    have hx := (List.pairwise_cons.mp h.secs).1
    unfold delL
    by_cases hs : norm x.1 = norm s
    · rw [if_pos hs, hasL_cons]
      by_cases hn : n = norm s
      · subst hn
        rw [hasL_false fun y hy => by rw [← hs]; exact fun e => hx y hy e.symm, bne_self_eq_false, Bool.false_and]
      · have : ¬ norm x.1 = n := fun e => hn (by rw [← e, hs])
        rw [beq_eq_false_iff_ne.mpr this, bne, beq_eq_false_iff_ne.mpr hn]; simp
    · rw [if_neg hs, hasL_cons, hasL_cons, ih h']
      by_cases hn : norm x.1 = n
      · have : ¬ n = norm s := fun e => hs (by rw [hn, e])
        rw [bne, beq_eq_false_iff_ne.mpr this]; simp
      · rw [beq_eq_false_iff_ne.mpr hn]; simp

theorem valL_delL {s : List Byte} {D : LDoc} (h : UniqL D) (n k : List Byte) :
    valL (delL s D) n k = if n = norm s then none else valL D n k := by
  by_cases hn : n = norm s
  · rw [if_pos hn]
    apply valL_none_of_not_has
    rw [hasL_delL h, hn, bne_self_eq_false, Bool.false_and]
  · rw [if_neg hn]
    clear h
    induction D with
    | nil => rfl
    | cons x D ih =>
      unfold delL
      by_cases hs : norm x.1 = norm s
      · have : ¬ norm x.1 = n := fun e => hn (by rw [← e, hs])
        rw [if_pos hs, valL_cons, if_neg this]
      · rw [if_neg hs, valL_cons, valL_cons, ih]

end Verif.IniParser
