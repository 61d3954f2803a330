import Verif.Hashmap.Lemmas
/-!
# C17–C20: the hash map
-/
namespace Verif.Hashmap
open Spec

/-! ## Creation -/

theorem growCount_ok (minimum : Nat) (hm : minimum < 2 ^ 63) :
    ∀ d k, d + k = 63 → (k = 0 ∨ 2 ^ (k - 1) ≤ minimum) →
      ∃ j, k ≤ j ∧ j ≤ 63 ∧ growCount minimum (d + 2) (2 ^ k) = some (2 ^ j) ∧ minimum < 2 ^ j ∧
        (j = 0 ∨ 2 ^ (j - 1) ≤ minimum) := by
  intro d
  induction d with
  | zero =>
    intro k hk hlo
    obtain rfl : k = 63 := by omega
    refine ⟨63, by omega, by omega, ?_, hm, hlo⟩
    unfold growCount
    rw [if_neg (by omega)]
  | succ d ih =>
    intro k hk hlo
    by_cases h : 2 ^ k ≤ minimum
    · obtain ⟨j, h1, h2, h3, h4, h5⟩ := ih (k + 1) (by omega) (Or.inr (by simpa using h))
      refine ⟨j, by omega, h2, ?_, h4, h5⟩
      unfold growCount
      rw [if_pos h]
      have : (2 : Nat) ^ (k + 1) ≤ 2 ^ 63 := Nat.pow_le_pow_right (by omega) (by omega)
      rw [← Nat.pow_succ, Nat.mod_eq_of_lt (by omega)]
      exact h3
    · refine ⟨k, by omega, by omega, ?_, by omega, hlo⟩
      unfold growCount
      rw [if_neg h]

/-- `hashmap_create` terminates for every requested capacity (any `size_t`), returning NULL or an
empty map with a power-of-two table; NULL exactly when an allocation fails. -/
theorem create_terminates (c : Cfg) (cap : Nat) (ok1 ok2 : Bool) :
    ∃ r, create cap ok1 ok2 = some r ∧ (∀ m, r = some m → R c m []) ∧
      (r = none → ok1 = false ∨ ok2 = false ∨ 2 ^ 60 < cap * 4 % 2 ^ 64) := by
  cases ok1 with
  | false => exact ⟨none, rfl, by simp, by simp⟩
  | true =>
    have hm : (cap * 4 % 2 ^ 64) / 3 < 2 ^ 63 := by omega
    obtain ⟨j, h1, h2, h3, h4, h5⟩ := growCount_ok _ hm 63 0 (by omega) (Or.inl rfl)
    simp only [Nat.pow_zero] at h3
    unfold create
    simp only [Bool.true_eq_false, if_false, h3]
    split
    · rename_i hc
      unfold callocOk at hc
      simp only [Bool.and_eq_true, decide_eq_true_eq] at hc
      have hj : j ≤ 60 := by
        have : (2 : Nat) ^ j < 2 ^ 61 := by omega
        have := (Nat.pow_lt_pow_iff_right (a := 2) (by omega)).mp this
        omega
      refine ⟨_, rfl, ?_, by simp⟩
      intro m hm
      simp only [Option.some.injEq] at hm
      subst hm
      refine ⟨⟨⟨j, hj, rfl⟩, by simp, replicate_placed _ _, ?_, ?_, by simp⟩, ?_, by simp⟩
      all_goals simp only [replicate_flatten]; simp
    · rename_i hc
      refine ⟨none, rfl, by simp, fun _ => ?_⟩
      cases ok2 with
      | false => simp
      | true =>
        unfold callocOk at hc
        simp only [Bool.true_and, decide_eq_true_eq, Nat.not_lt] at hc
        right; right
        have hj : 61 ≤ j := by
          by_contra hh
          have : (2 : Nat) ^ j ≤ 2 ^ 60 := Nat.pow_le_pow_right (by omega) (by omega)
          omega
        rcases h5 with h5 | h5
        · omega
        · have : (2 : Nat) ^ 60 ≤ 2 ^ (j - 1) := Nat.pow_le_pow_right (by omega) (by omega)
          have : 2 ^ 60 ≤ cap * 4 % 2 ^ 64 / 3 := by omega
          omega

/-! ## C17, C18: finite map behaviour -/

/-- Events of each call, as prescribed by the finite map. Up to order for `clear`. -/
def specEvs (c : Cfg) (L : FMap) : Op → List Ev
  | .put k _ _ _ => putEvs c L k
  | .get _ => []
  | .remove k => removeEvs c L k
  | .clear => freeEvs c L
  | .size => []

theorem step_ok {c : Cfg} (g : GoodCfg c) {m : Map} {L : FMap} (r : R c m L) (o : Op) :
    ∃ m' evs, step c m o = some (m', (Spec.step c.fnEq L o).2,
        if o = .size then evs else locked c evs) ∧
      R c m' (Spec.step c.fnEq L o).1 ∧ evs.Perm (specEvs c L o) := by
  cases o with
  | put k v ok1 ok2 =>
    obtain ⟨m', h1, h2⟩ := put_ok g r k v ok1 ok2
    exact ⟨m', putEvs c L k, by simpa [step] using h1, h2, List.Perm.refl _⟩
  | get k =>
    exact ⟨m, [], by simp [step, get_ok g r k, Spec.step], r, List.Perm.refl _⟩
  | remove k =>
    obtain ⟨m', h1, h2⟩ := remove_ok g r k
    exact ⟨m', removeEvs c L k, by simpa [step, Spec.step] using h1, h2, List.Perm.refl _⟩
  | clear =>
    obtain ⟨m', evs, h1, _, h2, h3⟩ := clear_ok r
    exact ⟨m', evs, by simp [step, h1, Spec.step], h2, h3⟩
  | size =>
    exact ⟨m, [], by simp [step, Spec.step, r.size_eq], r, List.Perm.refl _⟩

theorem run_ok {c : Cfg} (g : GoodCfg c) (ops : List Op) :
    ∀ {m : Map} {L : FMap}, R c m L →
      ∃ m' rs, run c m ops = some (m', rs) ∧ rs.map (·.1) = (Spec.run c.fnEq L ops).2 ∧
        R c m' (Spec.run c.fnEq L ops).1 := by
  induction ops with
  | nil => intro m L r; exact ⟨m, [], rfl, rfl, r⟩
  | cons o os ih =>
    intro m L r
    obtain ⟨m1, evs, h1, h2, _⟩ := step_ok g r o
    obtain ⟨m2, rs, h3, h4, h5⟩ := ih h2
    refine ⟨m2, ((Spec.step c.fnEq L o).2, if o = Op.size then evs else locked c evs) :: rs,
      ?_, ?_, h5⟩
    · unfold run
      simp only [h1, Option.bind_eq_bind, Option.bind_some, h3]
    · simp [Spec.run, h4]

/-- **C17.** Any history of `put`/`get`/`remove`/`clear`/`size` on a created map, with any hash
function (even a constant one), any equality that is an equivalence compatible with the hash, any
initial capacity and any pattern of allocation failures, never touches memory outside the table and
answers every call as the finite map does. -/
theorem history_is_finite_map (c : Cfg) (g : GoodCfg c) (cap : Nat) (ok1 ok2 : Bool) (m : Map)
    (hm : create cap ok1 ok2 = some (some m)) (ops : List Op) :
    ∃ m' rs, run c m ops = some (m', rs) ∧ rs.map (·.1) = (Spec.run c.fnEq [] ops).2 := by
  obtain ⟨r, h1, h2, _⟩ := create_terminates c cap ok1 ok2
  rw [hm] at h1
  simp only [Option.some.injEq] at h1
  obtain ⟨m', rs, h3, h4, _⟩ := run_ok g ops (h2 m h1.symm)
  exact ⟨m', rs, h3, h4⟩

/-- Reachable maps: created, then any history. -/
def Reachable (c : Cfg) (m : Map) : Prop :=
  ∃ cap ok1 ok2 m0 ops rs, create cap ok1 ok2 = some (some m0) ∧ run c m0 ops = some (m, rs)

theorem reachable_R {c : Cfg} (g : GoodCfg c) {m : Map} (h : Reachable c m) : ∃ L, R c m L := by
  obtain ⟨cap, ok1, ok2, m0, ops, rs, h1, h2⟩ := h
  obtain ⟨r, h3, h4, _⟩ := create_terminates c cap ok1 ok2
  rw [h1] at h3
  simp only [Option.some.injEq] at h3
  obtain ⟨m', rs', h5, _, h6⟩ := run_ok g ops (h4 m0 h3.symm)
  rw [h2] at h5
  simp only [Option.some.injEq, Prod.mk.injEq] at h5
  rw [← h5.1] at h6
  exact ⟨_, h6⟩

/-- The classic map law on any reachable map: after a `put` that got memory, `get` of an equal key
gives the new value and of any other key what it gave before. -/
theorem put_get (c : Cfg) (g : GoodCfg c) (m : Map) (hr : Reachable c m) (k v : Ptr)
    (ok2 : Bool) (hsz : m.size < 2 ^ 59) (k' : Ptr) :
    ∃ m' ret evs evs', put c m k v true ok2 = some (m', ret, evs) ∧
      get c m' k' = some (if c.fnEq k k' then v else ((get c m k').map (·.1)).getD 0, evs') := by
  obtain ⟨L, r⟩ := reachable_R g hr
  obtain ⟨m', h1, h2⟩ := put_ok g r k v true ok2
  refine ⟨m', _, _, locked c [], h1, ?_⟩
  rw [get_ok g h2 k', get_ok g r k']
  simp only [Option.map_some, Option.getD_some, Option.some.injEq, Prod.mk.injEq, and_true]
  rw [r.size_eq] at hsz
  simp only [Spec.step]
  have hkk : ∀ a, c.fnEq a k = true → c.fnEq a k' = c.fnEq k k' := by
    intro a ha
    cases h : c.fnEq k k' with
    | true => exact g.trans _ _ _ ha h
    | false =>
      cases h' : c.fnEq a k' with
      | false => rfl
      | true => rw [g.trans _ _ _ (g.symm _ _ ha) h'] at h; cases h
  cases hlk : lookup c.fnEq L k with
  | some p =>
    simp only
    clear h1 h2 r hsz
    unfold Spec.get lookup setVal
    unfold lookup at hlk
    induction L with
    | nil => simp at hlk
    | cons q L ih =>
      rw [List.find?_cons] at hlk
      simp only [List.map_cons, List.find?_cons]
      cases hq : c.fnEq q.1 k with
      | true =>
        simp only [if_true, hkk q.1 hq]
        cases hk : c.fnEq k k' with
        | true => simp
        | false =>
          simp only [Bool.false_eq_true, if_false]
          have : ∀ M : FMap, (M.map (fun p => if c.fnEq p.1 k = true then (p.1, v) else p)).find?
              (fun p => c.fnEq p.1 k') = M.find? (fun p => c.fnEq p.1 k') := by
            intro M
            induction M with
            | nil => rfl
            | cons a M ihM =>
              simp only [List.map_cons, List.find?_cons]
              cases ha : c.fnEq a.1 k with
              | true => simp only [if_true, hkk a.1 ha, hk]; exact ihM
              | false => simp only [Bool.false_eq_true, if_false]; rw [ihM]
          rw [this]
      | false =>
        rw [hq] at hlk
        simp only at hlk
        simp only [Bool.false_eq_true, if_false]
        cases hq' : c.fnEq q.1 k' with
        | true =>
          simp only
          cases hk : c.fnEq k k' with
          | true =>
            rw [g.trans _ _ _ hq' (g.symm _ _ hk)] at hq; cases hq
          | false => simp
        | false => simp only; exact ih hlk
  | none =>
    have hy : true = true ∧ L.length < 2 ^ 59 := ⟨rfl, hsz⟩
    simp only [true_and] at hy ⊢
    rw [if_pos hsz]
    unfold Spec.get lookup
    rw [List.find?_append]
    cases hf : L.find? (fun p => c.fnEq p.1 k') with
    | none => simp only [Option.none_or, List.find?_cons, List.find?_nil]; cases c.fnEq k k' <;> simp
    | some q =>
      have hq := List.find?_some hf
      have hqm := List.mem_of_find?_eq_some hf
      simp only [Option.some_or]
      cases hk : c.fnEq k k' with
      | false => simp
      | true =>
        unfold lookup at hlk
        rw [List.find?_eq_none] at hlk
        exact absurd (g.trans _ _ _ hq (g.symm _ _ hk)) (hlk q hqm)

/-- **C18** (size). On every reachable map the reported size is the number of stored entries, whose
keys are pairwise different; `get` finds exactly those. -/
theorem size_counts_distinct_keys (c : Cfg) (g : GoodCfg c) (m : Map) (h : Reachable c m) :
    ∃ L : List (Ptr × Ptr), m.size = L.length ∧
      L.Pairwise (fun p q => c.fnEq p.1 q.1 = false) ∧
      (∀ p ∈ L, ∃ evs, get c m p.1 = some (p.2, evs)) ∧
      (∀ k, (∀ p ∈ L, c.fnEq p.1 k = false) → ∃ evs, get c m k = some (0, evs)) := by
  obtain ⟨L, r⟩ := reachable_R g h
  refine ⟨L, r.size_eq, r.distinct, ?_, ?_⟩
  · intro p hp
    refine ⟨locked c [], ?_⟩
    rw [get_ok g r]
    refine congrArg some (Prod.ext ?_ rfl)
    simp only [Spec.get, lookup]
    cases hf : L.find? (fun q => c.fnEq q.1 p.1) with
    | none => rw [List.find?_eq_none] at hf; exact absurd (g.refl _) (hf p hp)
    | some q =>
      have := distinct_unique g r.distinct (List.mem_of_find?_eq_some hf) hp
        (by have := List.find?_some hf; exact this)
      rw [this]
  · intro k hk
    refine ⟨locked c [], ?_⟩
    rw [get_ok g r]
    refine congrArg some (Prod.ext ?_ rfl)
    simp only [Spec.get, lookup]
    rw [List.find?_eq_none.mpr]
    intro p hp; simp [hk p hp]

/-- **C18** (entry allocation failure). A put of a new key whose entry cannot be allocated returns
NULL and leaves the map exactly as it was. -/
theorem put_nomem_unchanged (c : Cfg) (g : GoodCfg c) (m : Map) (h : Reachable c m) (k v : Ptr)
    (ok2 : Bool) (hnew : ∀ e ∈ m.buckets.flatten, c.fnEq e.key k = false) :
    put c m k v false ok2 = some (m, 0, locked c []) := by
  obtain ⟨L, r⟩ := reachable_R g h
  obtain ⟨A, ch, B, h1, h2, h3, h4, h5, h6⟩ := locate g r.inv k
  unfold put
  simp only [h1]
  rw [putWalk_notFound g _ k v ch h6]
  · simp [entryOk]
  · unfold lookup
    rw [List.find?_eq_none]
    intro p hp
    obtain ⟨e, he, rfl⟩ := List.mem_map.mp hp
    have := hnew e (by rw [h2]; simp [he])
    simp [kv, this]

/-- **C18** (growth failure). Whether or not the table growth gets its memory makes no difference to
any later result: two runs whose operations differ only in the growth allocations' outcomes give
the same answers. -/
theorem growth_invisible (c : Cfg) (g : GoodCfg c) (m : Map) (h : Reachable c m) (ops ops' : List Op)
    (heq : List.Forall₂ (fun a b => a = b ∨ ∃ k v ok1 x y, a = .put k v ok1 x ∧ b = .put k v ok1 y)
      ops ops') :
    ∃ m1 m2 rs1 rs2, run c m ops = some (m1, rs1) ∧ run c m ops' = some (m2, rs2) ∧
      rs1.map (·.1) = rs2.map (·.1) := by
  obtain ⟨L, r⟩ := reachable_R g h
  obtain ⟨m1, rs1, h1, h2, _⟩ := run_ok g ops r
  obtain ⟨m2, rs2, h3, h4, _⟩ := run_ok g ops' r
  refine ⟨m1, m2, rs1, rs2, h1, h3, ?_⟩
  rw [h2, h4]
  rename_i h5 h6
  clear h1 h2 h3 h4 h5 h6 r
  induction heq generalizing L with
  | nil => rfl
  | cons hab _ ih =>
    rename_i a b _ _ _
    have : Spec.step c.fnEq L a = Spec.step c.fnEq L b := by
      rcases hab with rfl | ⟨k, v, ok1, x, y, rfl, rfl⟩ <;> rfl
    simp only [Spec.run, this, ih]

/-! ## C19: ownership -/

theorem count_freeEvs_val (c : Cfg) (hv : c.valFree = true) (p : Ptr) (hp : p ≠ 0) (L : FMap) :
    (freeEvs c L).count (.freeVal p) = (L.map (·.2)).count p := by
  unfold freeEvs
  induction L with
  | nil => rfl
  | cons a L ih =>
    rw [List.flatMap_cons, List.count_append, List.count_append, ih, List.map_cons, List.count_cons]
    have h1 : (freeKeyEv c a.1).count (.freeVal p) = 0 := by
      unfold freeKeyEv; split <;> simp
    have h2 : (freeValEv c a.2).count (.freeVal p) = if a.2 = p then 1 else 0 := by
      unfold freeValEv
      by_cases h : a.2 = p
      · simp [h, hp, hv]
      · split
        · simp [h]
        · simp
    rw [h1, h2]
    by_cases h : a.2 = p <;> simp [h]; omega

theorem count_freeEvs_key (c : Cfg) (hv : c.keyFree = true) (p : Ptr) (hp : p ≠ 0) (L : FMap) :
    (freeEvs c L).count (.freeKey p) = (L.map (·.1)).count p := by
  unfold freeEvs
  induction L with
  | nil => rfl
  | cons a L ih =>
    rw [List.flatMap_cons, List.count_append, List.count_append, ih, List.map_cons, List.count_cons]
    have h1 : (freeValEv c a.2).count (.freeKey p) = 0 := by
      unfold freeValEv; split <;> simp
    have h2 : (freeKeyEv c a.1).count (.freeKey p) = if a.1 = p then 1 else 0 := by
      unfold freeKeyEv
      by_cases h : a.1 = p
      · simp [h, hp, hv]
      · split
        · simp [h]
        · simp
    rw [h1, h2]
    by_cases h : a.1 = p <;> simp [h]; omega

theorem lookup_split {c : Cfg} (g : GoodCfg c) {L : FMap}
    (hd : L.Pairwise (fun p q => c.fnEq p.1 q.1 = false)) {k : Ptr} {q : Ptr × Ptr}
    (h : lookup c.fnEq L k = some q) :
    ∃ A B, L = A ++ ([q] ++ B) ∧ (∀ p ∈ A, c.fnEq p.1 k = false) ∧
      (∀ p ∈ B, c.fnEq p.1 k = false) ∧ c.fnEq q.1 k = true := by
  unfold lookup at h
  obtain ⟨h1, A, B, h2, h3⟩ := List.find?_eq_some_iff_append.mp h
  refine ⟨A, B, by simpa using h2, fun p hp => by simpa using h3 p hp, ?_, h1⟩
  intro p hp
  cases hx : c.fnEq p.1 k with
  | false => rfl
  | true =>
    rw [h2, List.pairwise_append, List.pairwise_cons] at hd
    have := hd.2.1.1 p hp
    rw [g.trans _ _ _ h1 (g.symm _ _ hx)] at this; cases this

theorem ledger_step_val {c : Cfg} (g : GoodCfg c) (hv : c.valFree = true) (p : Ptr) (hp : p ≠ 0)
    {L : FMap} (hd : L.Pairwise (fun p q => c.fnEq p.1 q.1 = false)) (o : Op) :
    (takesVal c.fnEq L o).count p + (L.map (·.2)).count p =
      (specEvs c L o).count (.freeVal p) + ((Spec.step c.fnEq L o).1.map (·.2)).count p := by
  cases o with
  | put k v ok1 ok2 =>
    simp only [takesVal, specEvs, putEvs, Spec.step]
    cases hl : lookup c.fnEq L k with
    | some q =>
      obtain ⟨A, B, h1, h2, h3, h4⟩ := lookup_split g hd hl
      simp only
      conv_rhs => rw [h1]
      rw [setVal_mid h2 h3]
      conv_lhs => rw [h1]
      simp only [List.map_append, List.count_append, setVal, List.map_cons, List.map_nil, h4, if_true,
        List.count_cons, List.count_nil]
      have h5 : (freeValEv c q.2).count (.freeVal p) = if q.2 = p then 1 else 0 := by
        unfold freeValEv
        by_cases h : q.2 = p
        · simp [h, hp, hv]
        · split
          · simp [h]
          · simp [h]
      rw [h5]
      by_cases h : q.2 = p <;> by_cases h' : v = p <;> simp [h, h'] <;> omega
    | none =>
      simp only
      split
      · simp only [List.map_append, List.count_append, List.map_cons, List.map_nil, List.count_nil]
        omega
      · simp
  | get k => simp [takesVal, specEvs, Spec.step]
  | remove k =>
    simp only [takesVal, specEvs, removeEvs, Spec.step]
    cases hl : lookup c.fnEq L k with
    | some q =>
      obtain ⟨A, B, h1, h2, h3, h4⟩ := lookup_split g hd hl
      simp only
      conv_rhs => rw [h1]
      rw [erase_mid h2 h3]
      conv_lhs => rw [h1]
      have := count_freeEvs_val c hv p hp [q]
      simp only [freeEvs, List.flatMap_cons, List.flatMap_nil, List.append_nil] at this
      rw [this]
      simp only [List.map_append, List.count_append, erase, List.filter_cons, h4]
      simp
      omega
    | none => simp [erase_none hl]
  | clear =>
    simp only [takesVal, specEvs, Spec.step, count_freeEvs_val c hv p hp]
    simp
  | size => simp [takesVal, specEvs, Spec.step]

theorem ledger_step_key {c : Cfg} (g : GoodCfg c) (hv : c.keyFree = true) (p : Ptr) (hp : p ≠ 0)
    {L : FMap} (hd : L.Pairwise (fun p q => c.fnEq p.1 q.1 = false)) (o : Op) :
    (takesKey c.fnEq L o).count p + (L.map (·.1)).count p =
      (specEvs c L o).count (.freeKey p) + ((Spec.step c.fnEq L o).1.map (·.1)).count p := by
  cases o with
  | put k v ok1 ok2 =>
    simp only [takesKey, specEvs, putEvs, Spec.step]
    cases hl : lookup c.fnEq L k with
    | some q =>
      simp only
      have h1 : (freeValEv c q.2).count (.freeKey p) = 0 := by
        unfold freeValEv; split <;> simp
      have h2 : (setVal c.fnEq L k v).map (·.1) = L.map (·.1) := by
        unfold setVal
        rw [List.map_map]
        apply List.map_congr_left
        intro a _
        simp only [Function.comp]
        split <;> rfl
      rw [h1, h2]
      simp
    | none =>
      simp only
      split
      · simp only [List.map_append, List.count_append, List.map_cons, List.map_nil, List.count_nil]
        omega
      · simp
  | get k => simp [takesKey, specEvs, Spec.step]
  | remove k =>
    simp only [takesKey, specEvs, removeEvs, Spec.step]
    cases hl : lookup c.fnEq L k with
    | some q =>
      obtain ⟨A, B, h1, h2, h3, h4⟩ := lookup_split g hd hl
      simp only
      conv_rhs => rw [h1]
      rw [erase_mid h2 h3]
      conv_lhs => rw [h1]
      have := count_freeEvs_key c hv p hp [q]
      simp only [freeEvs, List.flatMap_cons, List.flatMap_nil, List.append_nil] at this
      rw [this]
      simp only [List.map_append, List.count_append, erase, List.filter_cons, h4]
      simp
      omega
    | none => simp [erase_none hl]
  | clear =>
    simp only [takesKey, specEvs, Spec.step, count_freeEvs_key c hv p hp]
    simp
  | size => simp [takesKey, specEvs, Spec.step]

theorem count_locked (c : Cfg) (evs : List Ev) (e : Ev) (h1 : e ≠ .acquire) (h2 : e ≠ .release) :
    (locked c evs).count e = evs.count e := by
  unfold locked
  split
  · simp [List.count_append, List.count_cons, h1.symm, h2.symm]
  · rfl

theorem run_ledger {c : Cfg} (g : GoodCfg c) (e : Ev) (h1 : e ≠ .acquire) (h2 : e ≠ .release)
    (proj : Ptr × Ptr → Ptr) (p : Ptr) (takes : FMap → Op → List Ptr)
    (taken : FMap → List Op → List Ptr) (ht0 : ∀ L, taken L [] = [])
    (ht1 : ∀ L o os, taken L (o :: os) = takes L o ++ taken (Spec.step c.fnEq L o).1 os)
    (hs : ∀ L o, L.Pairwise (fun p q => c.fnEq p.1 q.1 = false) →
      (takes L o).count p + (L.map proj).count p =
        (specEvs c L o).count e + ((Spec.step c.fnEq L o).1.map proj).count p)
    (ops : List Op) :
    ∀ {m : Map} {L : FMap}, R c m L → ∃ m' rs, run c m ops = some (m', rs) ∧
      R c m' (Spec.run c.fnEq L ops).1 ∧
      (taken L ops).count p + (L.map proj).count p =
        (events rs).count e + ((Spec.run c.fnEq L ops).1.map proj).count p := by
  induction ops with
  | nil => intro m L r; exact ⟨m, [], rfl, r, by rw [ht0]; simp [events, Spec.run]⟩
  | cons o os ih =>
    intro m L r
    obtain ⟨m1, evs, a1, a2, a3⟩ := step_ok g r o
    obtain ⟨m2, rs, b1, b2, b3⟩ := ih a2
    refine ⟨m2, ((Spec.step c.fnEq L o).2, if o = Op.size then evs else locked c evs) :: rs,
      ?_, b2, ?_⟩
    · unfold run
      simp only [a1, Option.bind_eq_bind, Option.bind_some, b1]
    · rw [ht1]
      have h3 := hs L o r.distinct
      have h4 : (if o = Op.size then evs else locked c evs).count e = (specEvs c L o).count e := by
        rw [← a3.count_eq]
        split
        · rfl
        · exact count_locked c evs e h1 h2
      simp only [Spec.run, events, List.map_cons, List.flatten_cons, List.count_append, h4]
      simp only [events] at b3
      omega

/-- **C19** (values). Over any history on a fresh map with a value-free callback: for every
non-NULL value pointer, the number of times it was handed over = the number of times it was passed
to the callback + the number of times the map still stores it.  So each ownership is ended exactly
once, never while the map still holds it. -/
theorem value_ledger (c : Cfg) (g : GoodCfg c) (hv : c.valFree = true) (cap : Nat) (ok1 ok2 : Bool)
    (m : Map) (hm : create cap ok1 ok2 = some (some m)) (ops : List Op) (p : Ptr) (hp : p ≠ 0) :
    ∃ m' rs, run c m ops = some (m', rs) ∧
      (takenVals c.fnEq [] ops).count p =
        (events rs).count (.freeVal p) + (m'.buckets.flatten.map (·.value)).count p := by
  obtain ⟨r, h1, h2, _⟩ := create_terminates c cap ok1 ok2
  rw [hm] at h1
  simp only [Option.some.injEq] at h1
  obtain ⟨m', rs, h3, h4, h5⟩ := run_ledger g (.freeVal p) (by simp) (by simp) (·.2) p
    (takesVal c.fnEq) (takenVals c.fnEq) (fun _ => rfl) (fun _ _ _ => rfl)
    (fun L o hd => ledger_step_val g hv p hp hd o) ops (h2 m h1.symm)
  refine ⟨m', rs, h3, ?_⟩
  have h6 := (h4.perm.map (·.2)).count_eq p
  rw [List.map_map] at h6
  simp only [List.map_nil, List.count_nil, Nat.add_zero] at h5
  rw [h5, ← h6]
  rfl

/-- **C19** (keys). The same ledger for keys: only a key that was newly inserted is taken. -/
theorem key_ledger (c : Cfg) (g : GoodCfg c) (hv : c.keyFree = true) (cap : Nat) (ok1 ok2 : Bool)
    (m : Map) (hm : create cap ok1 ok2 = some (some m)) (ops : List Op) (p : Ptr) (hp : p ≠ 0) :
    ∃ m' rs, run c m ops = some (m', rs) ∧
      (takenKeys c.fnEq [] ops).count p =
        (events rs).count (.freeKey p) + (m'.buckets.flatten.map (·.key)).count p := by
  obtain ⟨r, h1, h2, _⟩ := create_terminates c cap ok1 ok2
  rw [hm] at h1
  simp only [Option.some.injEq] at h1
  obtain ⟨m', rs, h3, h4, h5⟩ := run_ledger g (.freeKey p) (by simp) (by simp) (·.1) p
    (takesKey c.fnEq) (takenKeys c.fnEq) (fun _ => rfl) (fun _ _ _ => rfl)
    (fun L o hd => ledger_step_key g hv p hp hd o) ops (h2 m h1.symm)
  refine ⟨m', rs, h3, ?_⟩
  have h6 := (h4.perm.map (·.1)).count_eq p
  rw [List.map_map] at h6
  simp only [List.map_nil, List.count_nil, Nat.add_zero] at h5
  rw [h5, ← h6]
  rfl

/-- **C19** (end of life). `hashmap_free` passes every key and value still stored to its callback,
each exactly as often as it is stored. -/
theorem free_releases_all (c : Cfg) (g : GoodCfg c) (m : Map) (h : Reachable c m) (p : Ptr)
    (hp : p ≠ 0) :
    ∃ evs, free c m = some evs ∧
      (c.valFree = true → evs.count (.freeVal p) = (m.buckets.flatten.map (·.value)).count p) ∧
      (c.keyFree = true → evs.count (.freeKey p) = (m.buckets.flatten.map (·.key)).count p) := by
  obtain ⟨L, r⟩ := reachable_R g h
  obtain ⟨m', evs, _, h2, _, h4⟩ := clear_ok r
  refine ⟨_, h2, ?_, ?_⟩
  · intro hv
    rw [count_locked _ _ _ (by simp) (by simp), h4.count_eq, count_freeEvs_val c hv p hp,
      ← (r.perm.map (·.2)).count_eq, List.map_map]
    rfl
  · intro hv
    rw [count_locked _ _ _ (by simp) (by simp), h4.count_eq, count_freeEvs_key c hv p hp,
      ← (r.perm.map (·.1)).count_eq, List.map_map]
    rfl

/-- Every locked operation makes exactly one acquire call, first, and one release call, last. -/
theorem lock_discipline (c : Cfg) (g : GoodCfg c) (hl : c.lock = true) (m : Map)
    (h : Reachable c m) (o : Op) (ho : o ≠ .size) :
    ∃ m' ret evs, step c m o = some (m', ret, [.acquire] ++ evs ++ [.release]) ∧
      Ev.acquire ∉ evs ∧ Ev.release ∉ evs := by
  obtain ⟨L, r⟩ := reachable_R g h
  obtain ⟨m', evs, h1, _, h3⟩ := step_ok g r o
  rw [if_neg ho] at h1
  unfold locked at h1
  rw [if_pos hl] at h1
  refine ⟨m', _, evs, h1, ?_⟩
  have aux : ∀ e, (e = Ev.acquire ∨ e = Ev.release) → e ∉ specEvs c L o := by
    intro e he hmem
    have k1 : ∀ x, e ∉ freeKeyEv c x := by
      intro x hx; unfold freeKeyEv at hx; split at hx <;> rcases he with rfl | rfl <;> simp at hx
    have k2 : ∀ x, e ∉ freeValEv c x := by
      intro x hx; unfold freeValEv at hx; split at hx <;> rcases he with rfl | rfl <;> simp at hx
    cases o with
    | put k v a b => simp only [specEvs, putEvs] at hmem; split at hmem <;> simp [k2] at hmem
    | get k => simp [specEvs] at hmem
    | remove k =>
      simp only [specEvs, removeEvs] at hmem; split at hmem <;> simp [k1, k2] at hmem
    | clear =>
      simp only [specEvs, freeEvs, List.mem_flatMap, List.mem_append, k1, k2] at hmem
      obtain ⟨_, _, h | h⟩ := hmem <;> exact h
    | size => simp [specEvs] at hmem
  exact ⟨fun hh => aux _ (Or.inl rfl) (h3.mem_iff.mp hh),
    fun hh => aux _ (Or.inr rfl) (h3.mem_iff.mp hh)⟩

/-- what a release event says about the configuration -/
def EvOk (c : Cfg) : Ev → Prop
  | .freeKey p => c.keyFree = true ∧ p ≠ 0
  | .freeVal p => c.valFree = true ∧ p ≠ 0
  | _ => True

/-- **C19** (callbacks). No operation calls a release callback that was not given, or passes NULL to one. -/
theorem callbacks_sane (c : Cfg) (g : GoodCfg c) (m : Map) (h : Reachable c m) :
    (∀ o m' ret evs, step c m o = some (m', ret, evs) → ∀ e ∈ evs, EvOk c e) ∧
    (∀ evs, free c m = some evs → ∀ e ∈ evs, EvOk c e) := by
  have k1 : ∀ x e, e ∈ freeKeyEv c x → EvOk c e := by
    intro x e hx; unfold freeKeyEv at hx; split at hx
    · rename_i hh; rw [List.mem_singleton] at hx; subst hx; exact ⟨hh.2, hh.1⟩
    · cases hx
  have k2 : ∀ x e, e ∈ freeValEv c x → EvOk c e := by
    intro x e hx; unfold freeValEv at hx; split at hx
    · rename_i hh; rw [List.mem_singleton] at hx; subst hx; exact ⟨hh.2, hh.1⟩
    · cases hx
  have hl : ∀ evs : List Ev, (∀ e ∈ evs, EvOk c e) → ∀ e ∈ locked c evs, EvOk c e := by
    intro evs hh e he
    unfold locked at he
    split at he
    · simp only [List.cons_append, List.nil_append, List.mem_cons, List.mem_append, List.not_mem_nil, or_false] at he
      rcases he with rfl | he | rfl
      · trivial
      · exact hh e he
      · trivial
    · exact hh e he
  have kf : ∀ L e, e ∈ freeEvs c L → EvOk c e := by
    intro L e he
    simp only [freeEvs, List.mem_flatMap, List.mem_append] at he
    obtain ⟨x, _, h | h⟩ := he
    · exact k1 _ _ h
    · exact k2 _ _ h
  obtain ⟨L, r⟩ := reachable_R g h
  refine ⟨fun o m' ret evs hs => ?_, fun evs hs => ?_⟩
  · obtain ⟨m1, evs1, h1, _, h3⟩ := step_ok g r o
    rw [h1] at hs
    simp only [Option.some.injEq, Prod.mk.injEq] at hs
    have hsp : ∀ e ∈ specEvs c L o, EvOk c e := by
      intro e he
      cases o with
      | put k v a b =>
        simp only [specEvs, putEvs] at he
        split at he
        · exact k2 _ _ he
        · cases he
      | get k => cases he
      | remove k =>
        simp only [specEvs, removeEvs] at he
        split at he
        · rcases List.mem_append.mp he with h | h
          · exact k1 _ _ h
          · exact k2 _ _ h
        · cases he
      | clear => exact kf _ _ he
      | size => cases he
    have hev : ∀ e ∈ evs1, EvOk c e := fun e he => hsp e (h3.mem_iff.mp he)
    rw [← hs.2.2]
    split
    · exact hev
    · exact hl _ hev
  · obtain ⟨m', evs1, _, h2, _, h4⟩ := clear_ok r
    rw [h2] at hs
    cases hs
    exact hl _ fun e he => kf L e (h4.mem_iff.mp he)

/-! ## C20: iteration -/

/-- Visits of a list of pairs. -/
def visits (L : List (Ptr × Ptr)) : List Ev := L.map fun p => .visit p.1 p.2

theorem foreachChain_true {σ : Type} (cb : σ → Ptr → Ptr → Bool × σ)
    (hcb : ∀ st k v, (cb st k v).1 = true) (ch : List Entry) :
    ∀ st, (foreachChain cb ch st).2 = visits (ch.map kv) := by
  induction ch with
  | nil => intro st; rfl
  | cons e es ih =>
    intro st
    unfold foreachChain
    simp only [hcb, Bool.true_eq_false, if_false, ih]
    rfl

theorem foreachAll_true {σ : Type} (cb : σ → Ptr → Ptr → Bool × σ)
    (hcb : ∀ st k v, (cb st k v).1 = true) (m : Map) (cnt : Nat) :
    ∀ i st, i + cnt = m.buckets.length →
      ∃ st', foreachAll cb m cnt i st = some (st', visits ((m.buckets.drop i).flatten.map kv)) := by
  induction cnt with
  | zero =>
    intro i st h
    refine ⟨st, ?_⟩
    rw [List.drop_of_length_le (by omega)]
    rfl
  | succ cnt ih =>
    intro i st h
    have hi : i < m.buckets.length := by omega
    obtain ⟨st', h1⟩ := ih (i + 1) (foreachChain cb m.buckets[i] st).1 (by omega)
    refine ⟨st', ?_⟩
    unfold foreachAll
    simp only [List.getElem?_eq_getElem hi, Option.bind_eq_bind, Option.bind_some, h1,
      foreachChain_true cb hcb]
    rw [List.drop_eq_getElem_cons hi]
    simp only [visits, List.flatten_cons, List.map_append]

/-- **C20** (first half). With a callback that never asks to stop, `hashmap_foreach` calls it exactly
once for each stored pair (`L` is the finite map the table represents: the one that answers `get`). -/
theorem foreach_visits_each_once_partial {σ : Type} (c : Cfg) (g : GoodCfg c) (cap : Nat) (ok1 ok2 : Bool)
    (m0 : Map) (hm : create cap ok1 ok2 = some (some m0)) (ops : List Op) (m : Map)
    (rs : List (Nat × List Ev)) (hrun : run c m0 ops = some (m, rs))
    (cb : σ → Ptr → Ptr → Bool × σ) (hcb : ∀ st k v, (cb st k v).1 = true) (st : σ) :
    ∃ st' evs, foreach c cb m st = some (st', locked c evs) ∧
      evs.Perm (visits (Spec.run c.fnEq [] ops).1) := by
  obtain ⟨r0, h1, h2, _⟩ := create_terminates c cap ok1 ok2
  rw [hm] at h1
  simp only [Option.some.injEq] at h1
  obtain ⟨m', rs', h3, _, r⟩ := run_ok g ops (h2 m0 h1.symm)
  rw [hrun] at h3
  simp only [Option.some.injEq, Prod.mk.injEq] at h3
  rw [← h3.1] at r
  obtain ⟨st', h4⟩ := foreachAll_true cb hcb m m.bucketCount 0 st (by rw [r.inv.len]; omega)
  refine ⟨st', _, by unfold foreach; rw [h4]; rfl, ?_⟩
  simp only [List.drop_zero]
  exact r.perm.map _

theorem foreachChain_sub {σ : Type} (cb : σ → Ptr → Ptr → Bool × σ) (ch : List Entry) :
    ∀ st, (foreachChain cb ch st).2.Sublist (visits (ch.map kv)) := by
  induction ch with
  | nil => intro st; exact List.Sublist.refl _
  | cons e es ih =>
    intro st
    unfold foreachChain
    simp only
    split
    · exact List.Sublist.cons_cons _ (List.nil_sublist _)
    · exact List.Sublist.cons_cons _ (ih _)

theorem foreachAll_sub {σ : Type} (cb : σ → Ptr → Ptr → Bool × σ) (m : Map) (cnt : Nat) :
    ∀ i st, i + cnt = m.buckets.length →
      ∃ st' evs, foreachAll cb m cnt i st = some (st', evs) ∧
        evs.Sublist (visits ((m.buckets.drop i).flatten.map kv)) := by
  induction cnt with
  | zero =>
    intro i st h
    exact ⟨st, [], rfl, List.nil_sublist _⟩
  | succ cnt ih =>
    intro i st h
    have hi : i < m.buckets.length := by omega
    obtain ⟨st', evs, h1, h2⟩ := ih (i + 1) (foreachChain cb m.buckets[i] st).1 (by omega)
    refine ⟨st', (foreachChain cb m.buckets[i] st).2 ++ evs, ?_, ?_⟩
    · unfold foreachAll
      simp only [List.getElem?_eq_getElem hi, Option.bind_eq_bind, Option.bind_some, h1]
    · rw [List.drop_eq_getElem_cons hi]
      have : visits ((m.buckets[i] :: m.buckets.drop (i + 1)).flatten.map kv) =
          visits (m.buckets[i].map kv) ++ visits ((m.buckets.drop (i + 1)).flatten.map kv) := by
        simp only [visits, List.flatten_cons, List.map_append]
      rw [this]
      exact List.Sublist.append (foreachChain_sub cb _ st) h2

/-- **C20** (what survives of the second half). Whatever the callback answers, no pair is visited
twice and nothing that is not stored is visited. -/
theorem foreach_at_most_once_partial {σ : Type} (c : Cfg) (g : GoodCfg c) (m : Map)
    (h : Reachable c m) (cb : σ → Ptr → Ptr → Bool × σ) (st : σ) :
    ∃ st' evs, foreach c cb m st = some (st', locked c evs) ∧
      evs.Sublist (m.buckets.flatten.map fun e => .visit e.key e.value) := by
  obtain ⟨L, r⟩ := reachable_R g h
  obtain ⟨st', evs, h1, h2⟩ := foreachAll_sub cb m m.bucketCount 0 st (by rw [r.inv.len]; omega)
  refine ⟨st', evs, by unfold foreach; rw [h1]; rfl, ?_⟩
  simpa [visits, List.map_map, kv, Function.comp_def] using h2

/-! ### Witnesses -/

/-- A configuration whose keys are integers, compared by value, hashed to themselves. -/
def intCfg : Cfg := ⟨fun k => BitVec.ofNat 32 k, fun a b => a == b, true, true, true⟩

/-- The worst hash function: all keys collide. -/
def collideCfg : Cfg := ⟨fun _ => 7, fun a b => a == b, true, true, false⟩

theorem intCfg_good : GoodCfg intCfg := by
  refine ⟨?_, ?_, ?_, ?_⟩ <;> simp [intCfg]

theorem collideCfg_good : GoodCfg collideCfg := by
  refine ⟨?_, ?_, ?_, ?_⟩ <;> simp [collideCfg]

def demoOps : List Op :=
  [.put 1 11 true true, .put 2 12 true true, .put 3 13 true true, .put 2 22 true true,
   .put 4 14 false true, .get 2, .get 4, .remove 1, .get 1, .size]

/-- The table really grows (1 → 4 buckets) and answers correctly, in both configurations. -/
example : create 0 true true = some (some ⟨[[]], 1, 0⟩) ∧
    (run intCfg ⟨[[]], 1, 0⟩ demoOps).map (fun r => (r.1.bucketCount, r.2.map (·.1))) =
      some (4, [0, 0, 0, 12, 0, 22, 0, 11, 0, 2]) := by decide +kernel

example : (run collideCfg ⟨[[]], 1, 0⟩ demoOps).map (fun r => r.2.map (·.1)) =
      some [0, 0, 0, 12, 0, 22, 0, 11, 0, 2] := by decide +kernel

/-- The ledger on the demo: value 12 was handed over once and freed once (by the replacement),
value 22 is still stored. -/
example : (takenVals intCfg.fnEq [] demoOps) = [11, 12, 13, 22] ∧
    (run intCfg ⟨[[]], 1, 0⟩ demoOps).map
      (fun r => ((events r.2).count (.freeVal 12), (events r.2).count (.freeVal 22),
        (r.1.buckets.flatten.map (·.value)).count 22)) = some (1, 0, 1) := by decide +kernel

/-- A small table with two occupied buckets. -/
def twoMap : Map :=
  ⟨[[], [], [], [], [], [], [⟨2, 0xff83acce#32, 12⟩], [⟨1, 0xff83cee7#32, 11⟩]], 8, 2⟩

/-- **C20 fails** as documented ("Stops iterating if the callback returns false", hashmap.h): on a
reachable map with entries in two buckets, a callback that returns false at its very first call is
called again. -/
theorem foreach_does_not_stop :
    ∃ m, Reachable intCfg m ∧ ∃ st' k1 v1 k2 v2 rest,
      foreach intCfg (fun (st : Unit) _ _ => (false, st)) m () =
        some (st', [.acquire, .visit k1 v1, .visit k2 v2] ++ rest) := by
  refine ⟨twoMap, ⟨4, true, true, ⟨List.replicate 8 [], 8, 0⟩,
    [.put 1 11 true true, .put 2 12 true true],
    [(0, [.acquire, .release]), (0, [.acquire, .release])], rfl, ?_⟩, ?_⟩
  · decide +kernel
  · exact ⟨(), 2, 12, 1, 11, [.release], by decide +kernel⟩

end Verif.Hashmap
