import Verif.Common.CStr
/-!
# strtok_r
-/
namespace Verif

/-- POSIX/glibc `strtok_r(p, delims, &save)` in object `m`: result object, token offset (`none` = NULL)
and the new `save` offset. -/
def strtokR (m : Mem) (p : Nat) (delims : List Byte) : Option (Mem × Option Nat × Nat) :=
  match m.cstr p with
  | none => none
  | some s =>
    let a := (s.takeWhile delims.contains).length
    if a = s.length then some (m, none, p + a)
    else
      let b := ((s.drop a).takeWhile fun c => !delims.contains c).length
      if a + b = s.length then some (m, some (p + a), p + a + b)
      else (m.poke (p + a + b) 0).map fun m => (m, some (p + a), p + a + b + 1)

/-- The maximal non-empty runs of characters outside `delims`, in order. -/
def tokens (delims : List Byte) (s : List Byte) : List (List Byte) :=
  (s.splitOnP delims.contains).filter (· ≠ [])

theorem tokens_delim {delims : List Byte} {c : Byte} {s : List Byte} (h : delims.contains c = true) :
    tokens delims (c :: s) = tokens delims s := by
  unfold tokens
  rw [List.splitOnP_cons_eq_if_modifyHead, if_pos h]
  simp

theorem tokens_all {delims : List Byte} {s : List Byte} (hne : s ≠ [])
    (h : ∀ c ∈ s, delims.contains c = false) : tokens delims s = [s] := by
  unfold tokens
  rw [List.splitOnP_eq_singleton h]
  simp [hne]

theorem tokens_first {delims : List Byte} {t : List Byte} {c : Byte} {s : List Byte} (hne : t ≠ [])
    (h : ∀ c ∈ t, delims.contains c = false) (hc : delims.contains c = true) :
    tokens delims (t ++ c :: s) = t :: tokens delims s := by
  unfold tokens
  rw [List.splitOnP_append_cons _ _ hc, List.splitOnP_eq_singleton h]
  simp [hne]

theorem tokens_nil (delims : List Byte) : tokens delims [] = [] := by
  unfold tokens; rw [List.splitOnP_nil]; simp

theorem tokens_skip {delims : List Byte} {a s : List Byte}
    (h : ∀ c ∈ a, delims.contains c = true) : tokens delims (a ++ s) = tokens delims s := by
  induction a with
  | nil => rfl
  | cons c a ih =>
    rw [List.cons_append, tokens_delim (h c (by simp)), ih (fun x hx => h x (by simp [hx]))]

theorem mem_takeWhile {p : Byte → Bool} {s : List Byte} {c : Byte} (h : c ∈ s.takeWhile p) :
    p c = true := by
  have := List.all_takeWhile (p := p) (l := s)
  rw [List.all_eq_true] at this
  exact this c h

theorem takeWhile_split (p : Byte → Bool) (s : List Byte) :
    (∀ c ∈ s.takeWhile p, p c = true) ∧ s = s.takeWhile p ++ s.dropWhile p ∧
      (s.dropWhile p = [] ∨ ∃ c t, s.dropWhile p = c :: t ∧ p c = false) := by
  refine ⟨fun c hc => mem_takeWhile hc, List.takeWhile_append_dropWhile.symm, ?_⟩
  cases h : s.dropWhile p with
  | nil => exact Or.inl rfl
  | cons c t =>
    right
    refine ⟨c, t, rfl, ?_⟩
    have := List.head_dropWhile_not p (l := s) (by rw [h]; simp)
    simpa [h] using this

/-- What `strtok_r` does to a string `r` found at offset `p`. -/
theorem strtokR_spec {m : Mem} {p : Nat} {r after : List Byte} (delims : List Byte)
    (hm : m.drop p = r ++ 0 :: after) (h0 : (0 : Byte) ∉ r) :
    (tokens delims r = [] ∧ strtokR m p delims = some (m, none, p + r.length)) ∨
    (∃ tok r' m' t p', tokens delims r = tok :: tokens delims r' ∧
      strtokR m p delims = some (m', some t, p') ∧ p ≤ t ∧ p < t + tok.length ∧
      t + tok.length ≤ p' ∧ (m' = m ∨ m' = m.set (t + tok.length) 0) ∧
      m'.drop p' = r' ++ 0 :: after ∧ (0 : Byte) ∉ r' ∧ m'.cstr t = some tok ∧
      r'.length < r.length) := by
  unfold strtokR
  rw [Mem.cstr_eq hm h0]
  have hml : m.length = p + (r.length + 1 + after.length) := by
    have := congrArg List.length hm
    simp at this
    have : m.length - p = r.length + (after.length + 1) := by simpa using this
    omega
  obtain ⟨ha, hs, hd⟩ := takeWhile_split delims.contains r
  simp only
  generalize hA : r.takeWhile delims.contains = A at *
  generalize hR : r.dropWhile delims.contains = R at *
  clear hA hR
  subst hs
  rcases hd with hd | ⟨c, t, hd, hc⟩
  · left
    subst hd
    rw [tokens_skip ha, tokens_nil]
    simp
  · right
    subst hd
    rw [if_neg (by simp)]
    have hdr : (A ++ c :: t).drop A.length = c :: t := by simp
    rw [hdr]
    obtain ⟨hb, hs2, hd2⟩ := takeWhile_split (fun x => !delims.contains x) (c :: t)
    have hBne : (c :: t).takeWhile (fun x => !delims.contains x) ≠ [] := by
      rw [List.takeWhile_cons, hc]; simp
    generalize (c :: t).takeWhile (fun x => !delims.contains x) = B at *
    generalize (c :: t).dropWhile (fun x => !delims.contains x) = S at *
    have hBpos : 0 < B.length := List.length_pos_iff.mpr hBne
    have hB : ∀ x ∈ B, delims.contains x = false := by
      intro x hx; have := hb x hx; simpa using this
    rw [hs2] at hm h0 hml ⊢
    have h0A : (0 : Byte) ∉ A := fun h => h0 (by simp [h])
    have h0B : (0 : Byte) ∉ B := fun h => h0 (by simp [h])
    have h0S : (0 : Byte) ∉ S := fun h => h0 (by simp [h])
    rw [tokens_skip ha]
    have hmt : m.drop (p + A.length) = B ++ S ++ 0 :: after := by
      rw [← List.drop_drop, hm]; simp
    rcases hd2 with hd2 | ⟨e, u, hd2, he⟩
    · subst hd2
      rw [if_pos (by simp)]
      refine ⟨B, [], m, p + A.length, p + A.length + B.length, ?_, rfl, by omega, by omega, by omega,
        Or.inl rfl, ?_, by simp, ?_, by simp; omega⟩
      · rw [List.append_nil, tokens_all hBne hB, tokens_nil]
      · rw [← List.drop_drop, hmt]; simp
      · exact Mem.cstr_eq (after := after) (by rw [hmt]; simp) h0B
    · subst hd2
      rw [if_neg (by simp)]
      have he' : delims.contains e = true := by simpa using he
      have hlt : p + A.length + B.length < m.length := by
        rw [hml]; simp; omega
      unfold Mem.poke
      rw [if_pos hlt]
      have hmq : m.drop (p + A.length + B.length) = e :: (u ++ 0 :: after) := by
        rw [← List.drop_drop, hmt]; simp
      refine ⟨B, u, m.set (p + A.length + B.length) 0, p + A.length, p + A.length + B.length + 1,
        tokens_first hBne hB he', rfl, by omega, by omega, by omega, Or.inr rfl, ?_, ?_, ?_, ?_⟩
      · rw [List.drop_set_of_lt (by omega), ← List.drop_drop, hmq]; rfl
      · intro h; exact h0S (by simp [h])
      · apply Mem.cstr_eq (after := u ++ 0 :: after) _ h0B
        rw [List.drop_set, if_neg (by omega), hmt]
        simp
      · simp; omega

/-- Writing behind the end of a C string does not change it. -/
theorem Mem.cstr_set {m : Mem} {t q : Nat} {s : List Byte} (h : m.cstr t = some s)
    (hq : t + s.length < q) (c : Byte) : Mem.cstr (m.set q c) t = some s := by
  unfold Mem.cstr at h
  simp only at h
  split at h
  · rename_i hl
    injection h with h
    rw [h] at hl
    have h0 : (0 : Byte) ∉ s := by
      rw [← h]; intro hm
      have := mem_takeWhile hm
      simp at this
    have hsplit := List.takeWhile_append_dropWhile (p := fun x : Byte => decide (x ≠ 0)) (l := m.drop t)
    rw [h] at hsplit
    cases hd : (m.drop t).dropWhile (fun x : Byte => decide (x ≠ 0)) with
    | nil =>
      rw [hd] at hsplit
      have := congrArg List.length hsplit
      simp at this
      have : s.length = m.length - t := by simpa using this
      omega
    | cons d u =>
      have hd0 : d = 0 := by
        rcases (takeWhile_split (fun x : Byte => decide (x ≠ 0)) (m.drop t)).2.2 with h1 | ⟨c', t', h1, h2⟩
        · rw [hd] at h1; cases h1
        · rw [hd] at h1
          injection h1 with h1 _
          rw [h1]; simpa using h2
      rw [hd, hd0] at hsplit
      refine Mem.cstr_eq (after := u.set (q - t - s.length - 1) c) ?_ h0
      rw [List.drop_set, if_neg (by omega), ← hsplit, List.set_append, if_neg (by omega)]
      obtain ⟨k, hk⟩ : ∃ k, q - t - s.length = k + 1 := ⟨q - t - s.length - 1, by omega⟩
      rw [hk]
      simp
  · cases h

end Verif
