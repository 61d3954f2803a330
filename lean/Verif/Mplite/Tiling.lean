/-!
# mplite: tilings of the pool by aligned blocks of power-of-two size (pure combinatorics)

`fr l` are the starts of the free blocks of size `2 ^ l`; `out` are the other blocks (start, logarithm).
-/
namespace Verif.Mplite

/-- `(i, l)` is a block. -/
def NF (fr : Nat → List Nat) (out : List (Nat × Nat)) (i l : Nat) : Prop := i ∈ fr l ∨ (i, l) ∈ out

/-- Function update. -/
def upd (fr : Nat → List Nat) (l : Nat) (v : List Nat) : Nat → List Nat := fun k => if k = l then v else fr k

theorem upd_self (fr : Nat → List Nat) (l : Nat) (v : List Nat) : upd fr l v l = v := by simp [upd]
theorem upd_ne (fr : Nat → List Nat) {l k : Nat} (v : List Nat) (h : k ≠ l) : upd fr l v k = fr k := by
  simp [upd, h]

/-- Atoms in free blocks of the first `m` sizes. -/
def freeSum (fr : Nat → List Nat) : Nat → Nat
  | 0 => 0
  | m + 1 => freeSum fr m + (fr m).length * 2 ^ m

/-- Atoms in the other blocks. -/
def outSum : List (Nat × Nat) → Nat
  | [] => 0
  | b :: bs => 2 ^ b.2 + outSum bs

structure Tiling (n : Nat) (fr : Nat → List Nat) (out : List (Nat × Nat)) : Prop where
  align : ∀ i l, NF fr out i l → 2 ^ l ∣ i ∧ i + 2 ^ l ≤ n
  disj : ∀ i l j k, NF fr out i l → NF fr out j k → i < j + 2 ^ k → j < i + 2 ^ l → i = j ∧ l = k
  excl : ∀ i l, i ∈ fr l → (i, l) ∉ out
  cover : ∀ x, x < n → ∃ i l, NF fr out i l ∧ i ≤ x ∧ x < i + 2 ^ l
  nodF : ∀ l, (fr l).Nodup
  nodO : out.Nodup
  total : freeSum fr 31 + outSum out = n
  small : n < 2 ^ 31

theorem freeSum_upd_ge (fr : Nat → List Nat) (l : Nat) (v : List Nat) : ∀ m, m ≤ l →
    freeSum (upd fr l v) m = freeSum fr m
  | 0, _ => rfl
  | m + 1, h => by
    unfold freeSum
    rw [freeSum_upd_ge fr l v m (by omega), upd_ne fr v (by omega)]

theorem freeSum_upd (fr : Nat → List Nat) (l : Nat) (v : List Nat) : ∀ m, l < m →
    freeSum (upd fr l v) m + (fr l).length * 2 ^ l = freeSum fr m + v.length * 2 ^ l
  | 0, h => by omega
  | m + 1, h => by
    unfold freeSum
    by_cases hl : l = m
    · subst hl
      rw [freeSum_upd_ge fr l v l (Nat.le_refl _), upd_self]; omega
    · rw [upd_ne fr v (fun e => hl e.symm)]
      have := freeSum_upd fr l v m (by omega)
      omega

theorem outSum_perm {a b : List (Nat × Nat)} (h : a.Perm b) : outSum a = outSum b := by
  induction h with
  | nil => rfl
  | cons x _ ih => simp only [outSum, ih]
  | swap x y l => simp only [outSum]; omega
  | trans _ _ ih1 ih2 => rw [ih1, ih2]

section
variable {n : Nat} {fr : Nat → List Nat} {out : List (Nat × Nat)} {i l : Nat}

theorem pow_lt_log {l : Nat} (h : 2 ^ l < 2 ^ 31) : l ≤ 30 := by
  have := (Nat.pow_lt_pow_iff_right (a := 2) (by decide)).mp h
  omega

theorem Tiling.log (t : Tiling n fr out) (h : NF fr out i l) : l ≤ 30 := by
  have h1 := (t.align i l h).2
  have := t.small
  exact pow_lt_log (by omega)

theorem Tiling.lt (t : Tiling n fr out) (h : NF fr out i l) : i < n := by
  have h1 := (t.align i l h).2
  have : 0 < 2 ^ l := Nat.pow_pos (by decide)
  omega

theorem Tiling.perm (t : Tiling n fr out) {out' : List (Nat × Nat)} (h : out.Perm out') : Tiling n fr out' := by
  have e : ∀ i l, NF fr out' i l ↔ NF fr out i l := by
    intro i l; unfold NF; rw [h.mem_iff]
  refine ⟨?_, ?_, ?_, ?_, t.nodF, h.nodup_iff.mp t.nodO, ?_, t.small⟩
  · intro i l hb; exact t.align i l ((e i l).mp hb)
  · intro i l j k h1 h2; exact t.disj i l j k ((e i l).mp h1) ((e j k).mp h2)
  · intro i l hf ho; exact t.excl i l hf (h.mem_iff.mpr ho)
  · intro x hx
    obtain ⟨i, l, h1, h2⟩ := t.cover x hx
    exact ⟨i, l, (e i l).mpr h1, h2⟩
  · rw [← outSum_perm h]; exact t.total

/-- Take a free block off its list. -/
theorem Tiling.take (t : Tiling n fr out) (h : i ∈ fr l) :
    Tiling n (upd fr l ((fr l).erase i)) ((i, l) :: out) := by
  have hl : l ≤ 30 := t.log (Or.inl h)
  have e : ∀ j k, NF (upd fr l ((fr l).erase i)) ((i, l) :: out) j k ↔ NF fr out j k := by
    intro j k
    unfold NF
    rw [List.mem_cons, Prod.mk.injEq]
    by_cases hk : k = l
    · subst hk
      rw [upd_self, (t.nodF k).mem_erase_iff]
      constructor
      · rintro (⟨_, h1⟩ | ⟨rfl, _⟩ | h1)
        · exact Or.inl h1
        · exact Or.inl h
        · exact Or.inr h1
      · rintro (h1 | h1)
        · by_cases hj : j = i
          · exact Or.inr (Or.inl ⟨hj, rfl⟩)
          · exact Or.inl ⟨hj, h1⟩
        · exact Or.inr (Or.inr h1)
    · rw [upd_ne fr _ hk]
      constructor
      · rintro (h1 | ⟨_, h1⟩ | h1)
        · exact Or.inl h1
        · exact absurd h1 hk
        · exact Or.inr h1
      · rintro (h1 | h1)
        · exact Or.inl h1
        · exact Or.inr (Or.inr h1)
  refine ⟨?_, ?_, ?_, ?_, ?_, ?_, ?_, t.small⟩
  · intro j k hb; exact t.align j k ((e j k).mp hb)
  · intro a b c d h1 h2; exact t.disj a b c d ((e a b).mp h1) ((e c d).mp h2)
  · intro j k hf ho
    rw [List.mem_cons, Prod.mk.injEq] at ho
    by_cases hk : k = l
    · subst hk
      rw [upd_self, (t.nodF k).mem_erase_iff] at hf
      rcases ho with ho | ho
      · exact hf.1 ho.1
      · exact t.excl j k hf.2 ho
    · rw [upd_ne fr _ hk] at hf
      rcases ho with ho | ho
      · exact hk ho.2
      · exact t.excl j k hf ho
  · intro x hx
    obtain ⟨j, k, h1, h2⟩ := t.cover x hx
    exact ⟨j, k, (e j k).mpr h1, h2⟩
  · intro k
    by_cases hk : k = l
    · subst hk; rw [upd_self]; exact (t.nodF k).erase i
    · rw [upd_ne fr _ hk]; exact t.nodF k
  · exact List.nodup_cons.mpr ⟨t.excl i l h, t.nodO⟩
  · have h1 := freeSum_upd fr l ((fr l).erase i) 31 (by omega)
    have h2 := t.total
    have h3 := List.length_erase_of_mem h
    have h4 : 0 < (fr l).length := List.length_pos_of_mem h
    rw [h3] at h1
    have h5 : (fr l).length * 2 ^ l = ((fr l).length - 1) * 2 ^ l + 2 ^ l := by
      conv => lhs; rw [show (fr l).length = (fr l).length - 1 + 1 by omega]
      rw [Nat.add_mul, Nat.one_mul]
    simp only [outSum]
    omega

/-- Put a block on its free list. -/
theorem Tiling.put (t : Tiling n fr ((i, l) :: out)) : Tiling n (upd fr l (i :: fr l)) out := by
  have hb0 : NF fr ((i, l) :: out) i l := Or.inr (by simp)
  have hl : l ≤ 30 := t.log hb0
  have hnf : i ∉ fr l := fun h => t.excl i l h (by simp)
  have hno := List.nodup_cons.mp t.nodO
  have e : ∀ j k, NF (upd fr l (i :: fr l)) out j k ↔ NF fr ((i, l) :: out) j k := by
    intro j k
    unfold NF
    rw [List.mem_cons, Prod.mk.injEq]
    by_cases hk : k = l
    · subst hk
      rw [upd_self, List.mem_cons]
      constructor
      · rintro ((h1 | h1) | h1)
        · exact Or.inr (Or.inl ⟨h1, rfl⟩)
        · exact Or.inl h1
        · exact Or.inr (Or.inr h1)
      · rintro (h1 | ⟨h1, _⟩ | h1)
        · exact Or.inl (Or.inr h1)
        · exact Or.inl (Or.inl h1)
        · exact Or.inr h1
    · rw [upd_ne fr _ hk]
      constructor
      · rintro (h1 | h1)
        · exact Or.inl h1
        · exact Or.inr (Or.inr h1)
      · rintro (h1 | ⟨_, h1⟩ | h1)
        · exact Or.inl h1
        · exact absurd h1 hk
        · exact Or.inr h1
  refine ⟨?_, ?_, ?_, ?_, ?_, hno.2, ?_, t.small⟩
  · intro j k hb; exact t.align j k ((e j k).mp hb)
  · intro a b c d h1 h2; exact t.disj a b c d ((e a b).mp h1) ((e c d).mp h2)
  · intro j k hf ho
    by_cases hk : k = l
    · subst hk
      rw [upd_self, List.mem_cons] at hf
      rcases hf with hf | hf
      · subst hf; exact hno.1 ho
      · exact t.excl j k hf (by simp [ho])
    · rw [upd_ne fr _ hk] at hf
      exact t.excl j k hf (by simp [ho])
  · intro x hx
    obtain ⟨j, k, h1, h2⟩ := t.cover x hx
    exact ⟨j, k, (e j k).mpr h1, h2⟩
  · intro k
    by_cases hk : k = l
    · subst hk; rw [upd_self]; exact List.nodup_cons.mpr ⟨hnf, t.nodF k⟩
    · rw [upd_ne fr _ hk]; exact t.nodF k
  · have h1 := freeSum_upd fr l (i :: fr l) 31 (by omega)
    have h2 := t.total
    rw [List.length_cons, Nat.add_mul, Nat.one_mul] at h1
    simp only [outSum] at h2
    omega

/-- Two overlapping aligned blocks: the smaller one is inside the bigger one. -/
theorem aligned_inside {i l j k : Nat} (hi : 2 ^ l ∣ i) (hj : 2 ^ k ∣ j) (hlk : l ≤ k) (h1 : i < j + 2 ^ k)
    (h2 : j < i + 2 ^ l) : j ≤ i ∧ i + 2 ^ l ≤ j + 2 ^ k := by
  have hd : 2 ^ l ∣ 2 ^ k := Nat.pow_dvd_pow 2 hlk
  obtain ⟨a, rfl⟩ := hi
  obtain ⟨b, hb⟩ := Nat.dvd_trans hd hj
  obtain ⟨c, hc⟩ := hd
  rw [hb, hc] at h1 ⊢
  rw [hb] at h2
  have e1 : 2 ^ l * b + 2 ^ l * c = 2 ^ l * (b + c) := by rw [Nat.mul_add]
  have e2 : 2 ^ l * a + 2 ^ l = 2 ^ l * (a + 1) := by rw [Nat.mul_add, Nat.mul_one]
  have hp : 0 < 2 ^ l := Nat.pow_pos (by decide)
  rw [e1] at h1 ⊢
  rw [e2] at h2 ⊢
  have h1' := Nat.lt_of_mul_lt_mul_left h1
  have h2' := Nat.lt_of_mul_lt_mul_left h2
  exact ⟨Nat.mul_le_mul_left _ (by omega), Nat.mul_le_mul_left _ (by omega)⟩

/-- Split a block in halves. -/
theorem Tiling.split (t : Tiling n fr ((i, l + 1) :: out)) :
    Tiling n fr ((i, l) :: (i + 2 ^ l, l) :: out) := by
  have hb0 : NF fr ((i, l + 1) :: out) i (l + 1) := Or.inr (by simp)
  have hp : 0 < 2 ^ l := Nat.pow_pos (by decide)
  have h2 : 2 ^ (l + 1) = 2 ^ l + 2 ^ l := by rw [Nat.pow_succ]; omega
  have hno := List.nodup_cons.mp t.nodO
  have old : ∀ j k, NF fr out j k → NF fr ((i, l + 1) :: out) j k := by
    rintro j k (h | h)
    · exact Or.inl h
    · exact Or.inr (by simp [h])
  have oldne : ∀ j k, NF fr out j k → ¬ (i = j ∧ l + 1 = k) := by
    rintro j k (h | h) ⟨rfl, rfl⟩
    · exact t.excl _ _ h (by simp)
    · exact hno.1 h
  have sep : ∀ j k, NF fr out j k → ¬ (i < j + 2 ^ k ∧ j < i + 2 ^ (l + 1)) := by
    intro j k hjk ⟨h1, h2⟩
    exact oldne j k hjk (t.disj i (l + 1) j k hb0 (old j k hjk) h1 h2)
  have e : ∀ j k, NF fr ((i, l) :: (i + 2 ^ l, l) :: out) j k →
      (j = i ∧ k = l) ∨ (j = i + 2 ^ l ∧ k = l) ∨ NF fr out j k := by
    intro j k h
    unfold NF at h
    simp only [List.mem_cons, Prod.mk.injEq] at h
    rcases h with h | h | h | h
    · exact Or.inr (Or.inr (Or.inl h))
    · exact Or.inl h
    · exact Or.inr (Or.inl h)
    · exact Or.inr (Or.inr (Or.inr h))
  have e' : ∀ j k, NF fr out j k → NF fr ((i, l) :: (i + 2 ^ l, l) :: out) j k := by
    rintro j k (h | h)
    · exact Or.inl h
    · exact Or.inr (by simp [h])
  have hal := t.align i (l + 1) hb0
  have hdl : 2 ^ l ∣ i := Nat.dvd_trans (Nat.pow_dvd_pow 2 (by omega)) hal.1
  refine ⟨?_, ?_, ?_, ?_, t.nodF, ?_, ?_, t.small⟩
  · intro j k hb
    rcases e j k hb with ⟨rfl, rfl⟩ | ⟨rfl, rfl⟩ | hb
    · exact ⟨hdl, by omega⟩
    · exact ⟨Nat.dvd_add hdl (Nat.dvd_refl _), by omega⟩
    · exact t.align j k (old j k hb)
  · intro a b c d hab hcd h3 h4
    rcases e a b hab with ⟨rfl, rfl⟩ | ⟨rfl, rfl⟩ | hab' <;>
      rcases e c d hcd with ⟨rfl, rfl⟩ | ⟨rfl, rfl⟩ | hcd'
    · exact ⟨rfl, rfl⟩
    · omega
    · exact absurd ⟨h3, by omega⟩ (sep c d hcd')
    · omega
    · exact ⟨rfl, rfl⟩
    · exact absurd ⟨by omega, by omega⟩ (sep c d hcd')
    · exact absurd ⟨h4, by omega⟩ (sep a b hab')
    · exact absurd ⟨by omega, by omega⟩ (sep a b hab')
    · exact t.disj a b c d (old a b hab') (old c d hcd') h3 h4
  · intro j k hf ho
    simp only [List.mem_cons, Prod.mk.injEq] at ho
    have hj : NF fr out j k := Or.inl hf
    have hpk : 0 < 2 ^ k := Nat.pow_pos (by decide)
    rcases ho with ⟨rfl, rfl⟩ | ⟨rfl, rfl⟩ | ho
    · exact sep _ _ hj ⟨by omega, by omega⟩
    · exact sep _ _ hj ⟨by omega, by omega⟩
    · exact t.excl j k hf (by simp [ho])
  · intro x hx
    obtain ⟨j, k, h1, h3, h4⟩ := t.cover x hx
    by_cases hji : j = i ∧ k = l + 1
    · obtain ⟨rfl, rfl⟩ := hji
      by_cases hxl : x < j + 2 ^ l
      · exact ⟨j, l, Or.inr (by simp), h3, hxl⟩
      · exact ⟨j + 2 ^ l, l, Or.inr (by simp), by omega, by omega⟩
    · refine ⟨j, k, e' j k ?_, h3, h4⟩
      rcases h1 with h1 | h1
      · exact Or.inl h1
      · simp only [List.mem_cons, Prod.mk.injEq] at h1
        rcases h1 with h1 | h1
        · exact absurd h1 hji
        · exact Or.inr h1
  · have hi1 : (i, l) ∉ out := fun h => sep i l (Or.inr h) ⟨by omega, by omega⟩
    have hi2 : (i + 2 ^ l, l) ∉ out := fun h => sep _ l (Or.inr h) ⟨by omega, by omega⟩
    refine List.nodup_cons.mpr ⟨?_, List.nodup_cons.mpr ⟨hi2, hno.2⟩⟩
    simp only [List.mem_cons, Prod.mk.injEq, not_or]
    exact ⟨fun h => by omega, hi1⟩
  · have := t.total
    simp only [outSum] at this ⊢
    omega

/-- Merge two halves. -/
theorem Tiling.merge (t : Tiling n fr ((i, l) :: (i + 2 ^ l, l) :: out)) (hal : 2 ^ (l + 1) ∣ i) :
    Tiling n fr ((i, l + 1) :: out) := by
  have hb1 : NF fr ((i, l) :: (i + 2 ^ l, l) :: out) i l := Or.inr (by simp)
  have hb2 : NF fr ((i, l) :: (i + 2 ^ l, l) :: out) (i + 2 ^ l) l := Or.inr (by simp)
  have hp : 0 < 2 ^ l := Nat.pow_pos (by decide)
  have h2 : 2 ^ (l + 1) = 2 ^ l + 2 ^ l := by rw [Nat.pow_succ]; omega
  have hno := List.nodup_cons.mp t.nodO
  have hno2 := List.nodup_cons.mp hno.2
  have hno1 : (i, l) ∉ out := fun h => hno.1 (by simp [h])
  have old : ∀ j k, NF fr out j k → NF fr ((i, l) :: (i + 2 ^ l, l) :: out) j k := by
    rintro j k (h | h)
    · exact Or.inl h
    · exact Or.inr (by simp [h])
  have sep : ∀ j k, NF fr out j k → ¬ (i < j + 2 ^ k ∧ j < i + 2 ^ (l + 1)) := by
    intro j k hjk ⟨h3, h4⟩
    have hpk : 0 < 2 ^ k := Nat.pow_pos (by decide)
    by_cases hc : j < i + 2 ^ l
    · obtain ⟨rfl, rfl⟩ := t.disj i l j k hb1 (old j k hjk) h3 hc
      rcases hjk with h | h
      · exact t.excl _ _ h (by simp)
      · exact hno1 h
    · obtain ⟨e1, rfl⟩ := t.disj (i + 2 ^ l) l j k hb2 (old j k hjk) (by omega) (by omega)
      subst e1
      rcases hjk with h | h
      · exact t.excl _ _ h (by simp)
      · exact hno2.1 h
  have e : ∀ j k, NF fr ((i, l + 1) :: out) j k → (j = i ∧ k = l + 1) ∨ NF fr out j k := by
    intro j k h
    unfold NF at h
    simp only [List.mem_cons, Prod.mk.injEq] at h
    rcases h with h | h | h
    · exact Or.inr (Or.inl h)
    · exact Or.inl h
    · exact Or.inr (Or.inr h)
  refine ⟨?_, ?_, ?_, ?_, t.nodF, ?_, ?_, t.small⟩
  · intro j k hb
    rcases e j k hb with ⟨rfl, rfl⟩ | hb
    · have := (t.align _ _ hb2).2
      exact ⟨hal, by omega⟩
    · exact t.align j k (old j k hb)
  · intro a b c d hab hcd h3 h4
    rcases e a b hab with ⟨rfl, rfl⟩ | hab' <;> rcases e c d hcd with ⟨rfl, rfl⟩ | hcd'
    · exact ⟨rfl, rfl⟩
    · exact absurd ⟨h3, h4⟩ (sep c d hcd')
    · exact absurd ⟨h4, h3⟩ (sep a b hab')
    · exact t.disj a b c d (old a b hab') (old c d hcd') h3 h4
  · intro j k hf ho
    simp only [List.mem_cons, Prod.mk.injEq] at ho
    have hpk : 0 < 2 ^ k := Nat.pow_pos (by decide)
    rcases ho with ⟨rfl, rfl⟩ | ho
    · exact sep _ _ (Or.inl hf) ⟨by omega, by omega⟩
    · exact t.excl j k hf (by simp [ho])
  · intro x hx
    obtain ⟨j, k, h1, h3, h4⟩ := t.cover x hx
    rcases h1 with h1 | h1
    · exact ⟨j, k, Or.inl h1, h3, h4⟩
    · simp only [List.mem_cons, Prod.mk.injEq] at h1
      rcases h1 with ⟨rfl, rfl⟩ | ⟨rfl, rfl⟩ | h1
      · exact ⟨j, k + 1, Or.inr (by simp), h3, by omega⟩
      · exact ⟨i, k + 1, Or.inr (by simp), by omega, by omega⟩
      · exact ⟨j, k, Or.inr (by simp [h1]), h3, h4⟩
  · refine List.nodup_cons.mpr ⟨fun h => sep i (l + 1) (Or.inr h) ⟨by omega, by omega⟩, hno2.2⟩
  · have := t.total
    simp only [outSum] at this ⊢
    omega

/-! ### Coalescing -/

/-- The other half of the block of double size. -/
def buddy (i l : Nat) : Nat := if (i / 2 ^ l) % 2 = 1 then i - 2 ^ l else i + 2 ^ l

/-- No two free buddies. -/
def Coal (fr : Nat → List Nat) : Prop := ∀ i l, i ∈ fr l → buddy i l ∉ fr l

theorem buddy_cases {i l : Nat} (h : 2 ^ l ∣ i) :
    (2 ^ (l + 1) ∣ i ∧ buddy i l = i + 2 ^ l ∧ (i / 2 ^ l) % 2 = 0) ∨
    (2 ^ (l + 1) ∣ buddy i l ∧ i = buddy i l + 2 ^ l ∧ (i / 2 ^ l) % 2 = 1) := by
  obtain ⟨a, rfl⟩ := h
  have hp : 0 < 2 ^ l := Nat.pow_pos (by decide)
  have hd : 2 ^ l * a / 2 ^ l = a := Nat.mul_div_cancel_left a hp
  unfold buddy
  rw [hd]
  by_cases ho : a % 2 = 1
  · right
    rw [if_pos ho]
    obtain ⟨b, rfl⟩ : ∃ b, a = 2 * b + 1 := ⟨a / 2, by omega⟩
    have e : 2 ^ l * (2 * b + 1) = 2 ^ (l + 1) * b + 2 ^ l := by
      rw [Nat.mul_add, Nat.mul_one, ← Nat.mul_assoc, Nat.pow_succ]
    rw [e, Nat.add_sub_cancel]
    exact ⟨Nat.dvd_mul_right _ _, rfl, ho⟩
  · left
    rw [if_neg ho]
    obtain ⟨b, rfl⟩ : ∃ b, a = 2 * b := ⟨a / 2, by omega⟩
    refine ⟨?_, rfl, by omega⟩
    rw [← Nat.mul_assoc, ← Nat.pow_succ]
    exact Nat.dvd_mul_right _ _

theorem buddy_of_lower {i l : Nat} (h : 2 ^ (l + 1) ∣ i) : buddy i l = i + 2 ^ l ∧ buddy (i + 2 ^ l) l = i := by
  have hp : 0 < 2 ^ l := Nat.pow_pos (by decide)
  obtain ⟨a, rfl⟩ := h
  have e1 : 2 ^ (l + 1) * a / 2 ^ l = 2 * a := by
    rw [Nat.pow_succ, Nat.mul_assoc, Nat.mul_div_cancel_left _ hp]
  have e2 : (2 ^ (l + 1) * a + 2 ^ l) / 2 ^ l = 2 * a + 1 := by
    rw [Nat.add_div_right _ hp, e1]
  unfold buddy
  rw [e1, e2, if_neg (by omega), if_pos (by omega)]
  exact ⟨rfl, by omega⟩

theorem buddy_invol {i l : Nat} (h : 2 ^ l ∣ i) : buddy (buddy i l) l = i := by
  rcases buddy_cases h with ⟨h1, h2, _⟩ | ⟨h1, h2, _⟩
  · rw [h2, (buddy_of_lower h1).2]
  · generalize buddy i l = b at *
    subst h2
    exact (buddy_of_lower h1).1

theorem buddy_dvd {i l : Nat} (h : 2 ^ l ∣ i) : 2 ^ l ∣ buddy i l := by
  rcases buddy_cases h with ⟨_, h2, _⟩ | ⟨h1, _, _⟩
  · rw [h2]; exact Nat.dvd_add h (Nat.dvd_refl _)
  · exact Nat.dvd_trans (Nat.pow_dvd_pow 2 (by omega)) h1

/-- Removing free blocks keeps the free ones coalesced. -/
theorem Coal.erase (c : Coal fr) : Coal (upd fr l ((fr l).erase i)) := by
  intro j k hj hb
  by_cases hk : k = l
  · subst hk
    rw [upd_self] at hj hb
    exact c j k (List.mem_of_mem_erase hj) (List.mem_of_mem_erase hb)
  · rw [upd_ne fr _ hk] at hj hb
    exact c j k hj hb

/-- Adding a block whose buddy is not free, too. -/
theorem Coal.cons (c : Coal fr) (hi : 2 ^ l ∣ i) (hal : ∀ j ∈ fr l, 2 ^ l ∣ j) (hb : buddy i l ∉ fr l) :
    Coal (upd fr l (i :: fr l)) := by
  have hne : ∀ j, 2 ^ l ∣ j → buddy j l ≠ j := by
    intro j hj e
    have hp : 0 < 2 ^ l := Nat.pow_pos (by decide)
    rcases buddy_cases hj with ⟨_, h, _⟩ | ⟨_, h, _⟩ <;> omega
  intro j k hj hbj
  by_cases hk : k = l
  · subst hk
    rw [upd_self, List.mem_cons] at hj hbj
    rcases hj with rfl | hj
    · rcases hbj with h | h
      · exact hne _ hi h
      · exact hb h
    · rcases hbj with h | h
      · apply hb
        rw [← h, buddy_invol (hal j hj)]; exact hj
      · exact c j k hj h
  · rw [upd_ne fr _ hk] at hj hbj
    exact c j k hj hbj

/-- In a coalesced tiling, an aligned range without a taken atom lies inside a free block. -/
theorem Tiling.range_in_free (t : Tiling n fr out) (c : Coal fr) : ∀ (k a : Nat), 2 ^ k ∣ a → a + 2 ^ k ≤ n →
    (∀ x, a ≤ x → x < a + 2 ^ k → ∀ b ∈ out, ¬ (b.1 ≤ x ∧ x < b.1 + 2 ^ b.2)) →
    ∃ i l, i ∈ fr l ∧ i ≤ a ∧ a + 2 ^ k ≤ i + 2 ^ l
  | 0, a, _, h2, h3 => by
    obtain ⟨i, l, h4, h5, h6⟩ := t.cover a (by omega)
    rcases h4 with h4 | h4
    · exact ⟨i, l, h4, h5, by omega⟩
    · exact absurd ⟨h5, h6⟩ (h3 a (Nat.le_refl _) (by omega) (i, l) h4)
  | k + 1, a, h1, h2, h3 => by
    have hp : 0 < 2 ^ k := Nat.pow_pos (by decide)
    have e2 : 2 ^ (k + 1) = 2 ^ k + 2 ^ k := by rw [Nat.pow_succ]; omega
    have hd : 2 ^ k ∣ a := Nat.dvd_trans (Nat.pow_dvd_pow 2 (by omega)) h1
    obtain ⟨i, l, a1, a2, a3⟩ := Tiling.range_in_free t c k a hd (by omega)
      (fun x hx1 hx2 => h3 x hx1 (by omega))
    obtain ⟨j, m, b1, b2, b3⟩ := Tiling.range_in_free t c k (a + 2 ^ k) (Nat.dvd_add hd (Nat.dvd_refl _)) (by omega)
      (fun x hx1 hx2 => h3 x (by omega) (by omega))
    have ai := (t.align i l (Or.inl a1)).1
    have aj := (t.align j m (Or.inl b1)).1
    by_cases hl : k + 1 ≤ l
    · have := aligned_inside h1 ai hl (by omega) (by omega)
      exact ⟨i, l, a1, this.1, this.2⟩
    · by_cases hm : k + 1 ≤ m
      · have := aligned_inside h1 aj hm (by omega) (by omega)
        exact ⟨j, m, b1, this.1, this.2⟩
      · have hlk : l = k := by
          have h7 : 2 ^ k ≤ 2 ^ l := by omega
          have := (Nat.pow_le_pow_iff_right (a := 2) (by decide)).mp h7
          omega
        have hmk : m = k := by
          have h7 : 2 ^ k ≤ 2 ^ m := by omega
          have := (Nat.pow_le_pow_iff_right (a := 2) (by decide)).mp h7
          omega
        subst hlk; subst hmk
        have hia : i = a := by omega
        have hja : j = a + 2 ^ m := by omega
        subst hia; subst hja
        exact absurd b1 (by rw [← (buddy_of_lower h1).1]; exact c i m a1)

/-- Two coalesced tilings without taken blocks are the same. -/
theorem Tiling.unique {fr' : Nat → List Nat} (t : Tiling n fr []) (c : Coal fr) (t' : Tiling n fr' [])
    (c' : Coal fr') : ∀ i l, i ∈ fr l → i ∈ fr' l := by
  intro i l h
  obtain ⟨h1, h2⟩ := t.align i l (Or.inl h)
  obtain ⟨j, m, a1, a2, a3⟩ := t'.range_in_free c' l i h1 h2 (by simp)
  obtain ⟨h3, h4⟩ := t'.align j m (Or.inl a1)
  obtain ⟨p, q, b1, b2, b3⟩ := t.range_in_free c m j h3 h4 (by simp)
  have hp : 0 < 2 ^ l := Nat.pow_pos (by decide)
  obtain ⟨e1, e2⟩ := t.disj i l p q (Or.inl h) (Or.inl b1) (by omega) (by omega)
  subst e1; subst e2
  have hij : i = j := by omega
  have hlm : 2 ^ l = 2 ^ m := by omega
  have g1 := (Nat.pow_le_pow_iff_right (a := 2) (by decide)).mp (Nat.le_of_eq hlm)
  have g2 := (Nat.pow_le_pow_iff_right (a := 2) (by decide)).mp (Nat.le_of_eq hlm.symm)
  have : l = m := by omega
  subst hij; subst this
  exact a1

end

end Verif.Mplite
