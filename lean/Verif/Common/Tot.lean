/-! # Sums over a family of threads -/
namespace Verif.Tot

/-- `Σ_{k<N} w (f k)`. -/
def tot {α : Type} (N : Nat) (w : α → Nat) (f : Nat → α) : Nat :=
  ((List.range N).map (fun k => w (f k))).sum

/-- `f` changed at `t`. -/
def upd {α : Type} (f : Nat → α) (t : Nat) (c : α) : Nat → α := fun k => if k = t then c else f k

@[simp] theorem upd_self {α : Type} (f : Nat → α) (t : Nat) (c : α) : upd f t c t = c := by simp [upd]
theorem upd_other {α : Type} (f : Nat → α) {t k : Nat} (c : α) (h : k ≠ t) : upd f t c k = f k := by
  simp [upd, h]

theorem tot_succ {α : Type} (N : Nat) (w : α → Nat) (f : Nat → α) :
    tot (N + 1) w f = tot N w f + w (f N) := by
  simp [tot, List.range_succ]

theorem tot_zero {α : Type} (w : α → Nat) (f : Nat → α) : tot 0 w f = 0 := rfl

theorem tot_congr {α β : Type} {N : Nat} {w : α → Nat} {w' : β → Nat} {f : Nat → α} {g : Nat → β}
    (h : ∀ k, k < N → w (f k) = w' (g k)) : tot N w f = tot N w' g := by
  induction N with
  | zero => rfl
  | succ N ih => rw [tot_succ, tot_succ, ih (fun k hk => h k (by omega)), h N (by omega)]

theorem tot_upd {α : Type} {N t : Nat} (ht : t < N) (w : α → Nat) (f : Nat → α) (c : α) :
    tot N w (upd f t c) + w (f t) = tot N w f + w c := by
  induction N with
  | zero => omega
  | succ N ih =>
    rw [tot_succ, tot_succ]
    by_cases h : t = N
    · subst h
      rw [tot_congr (w := w) (w' := w) (f := upd f t c) (g := f)
        (fun k hk => by rw [upd_other f c (by omega)]), upd_self]
      omega
    · have := ih (by omega)
      rw [upd_other f c (fun e => h e.symm)]
      omega

theorem tot_le {α : Type} {N t : Nat} (ht : t < N) (w : α → Nat) (f : Nat → α) : w (f t) ≤ tot N w f := by
  induction N with
  | zero => omega
  | succ N ih =>
    rw [tot_succ]
    by_cases h : t = N
    · subst h; omega
    · have := ih (by omega); omega

theorem tot_pos {α : Type} {N : Nat} {w : α → Nat} {f : Nat → α} (h : 0 < tot N w f) :
    ∃ t, t < N ∧ 0 < w (f t) := by
  induction N with
  | zero => simp [tot_zero] at h
  | succ N ih =>
    rw [tot_succ] at h
    by_cases h0 : 0 < w (f N)
    · exact ⟨N, by omega, h0⟩
    · obtain ⟨t, ht, h1⟩ := ih (by omega)
      exact ⟨t, by omega, h1⟩

theorem tot_eq_zero {α : Type} {N : Nat} {w : α → Nat} {f : Nat → α} :
    tot N w f = 0 ↔ ∀ t, t < N → w (f t) = 0 := by
  constructor
  · intro h t ht; have := tot_le ht w f; omega
  · intro h
    rcases Nat.eq_zero_or_pos (tot N w f) with e | e
    · exact e
    · obtain ⟨t, ht, h1⟩ := tot_pos e; have := h t ht; omega

theorem tot_two {α : Type} {N t t' : Nat} (ht : t < N) (ht' : t' < N) (hne : t ≠ t') (w : α → Nat)
    (f : Nat → α) : w (f t) + w (f t') ≤ tot N w f := by
  induction N with
  | zero => omega
  | succ N ih =>
    rw [tot_succ]
    by_cases h : t = N
    · subst h; have := tot_le (N := t) (t := t') (by omega) w f; omega
    · by_cases h' : t' = N
      · subst h'; have := tot_le (N := t') (t := t) (by omega) w f; omega
      · have := ih (by omega) (by omega); omega

theorem tot_mono {α : Type} {N : Nat} {w w' : α → Nat} {f : Nat → α} (h : ∀ c, w c ≤ w' c) :
    tot N w f ≤ tot N w' f := by
  induction N with
  | zero => simp [tot_zero]
  | succ N ih => rw [tot_succ, tot_succ]; have := h (f N); omega

end Verif.Tot
