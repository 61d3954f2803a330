import Verif.Strings.Model
import Verif.Strings.Spec
/-!
# strreplace (C29)
-/
namespace Verif.Strings

theorem isPrefixOf_iff {p s : List Byte} : p.isPrefixOf s = true ↔ p <+: s := List.isPrefixOf_iff_prefix

theorem replace_nil (pat rep : List Byte) : Spec.replace pat rep [] = [] := by
  unfold Spec.replace; rfl

theorem replace_match {pat rep s : List Byte} (hp : pat ≠ []) (h : pat <+: s) :
    Spec.replace pat rep s = rep ++ Spec.replace pat rep (s.drop pat.length) := by
  cases s with
  | nil => exact absurd (List.prefix_nil.mp h) hp
  | cons c s =>
    rw [Spec.replace, if_pos ⟨hp, h⟩]

theorem replace_skip {pat rep : List Byte} {c : Byte} {s : List Byte} (h : ¬ pat <+: (c :: s)) :
    Spec.replace pat rep (c :: s) = c :: Spec.replace pat rep s := by
  rw [Spec.replace, if_neg (fun h' => h h'.2)]

/-- What `strstr` finds, in terms of the specification. -/
theorem strstr_replace {pat : List Byte} (rep : List Byte) (hp : pat ≠ []) :
    ∀ s : List Byte, (strstr pat s = none → Spec.replace pat rep s = s) ∧
      (∀ k, strstr pat s = some k → k + pat.length ≤ s.length ∧
        Spec.replace pat rep s = s.take k ++ rep ++ Spec.replace pat rep (s.drop (k + pat.length))) := by
  intro s
  induction s with
  | nil =>
    refine ⟨fun _ => replace_nil _ _, ?_⟩
    intro k hk
    unfold strstr at hk
    have : ¬ pat.isPrefixOf [] = true := by
      rw [isPrefixOf_iff]; intro h; exact hp (List.prefix_nil.mp h)
    rw [if_neg this] at hk
    cases hk
  | cons c s ih =>
    unfold strstr
    by_cases h : pat.isPrefixOf (c :: s) = true
    · rw [if_pos h]
      have h' := isPrefixOf_iff.mp h
      refine ⟨fun e => by simp at e, ?_⟩
      intro k hk
      injection hk with hk
      subst hk
      refine ⟨by have := h'.length_le; omega, ?_⟩
      rw [replace_match hp h']
      simp
    · rw [if_neg h]
      have h' : ¬ pat <+: (c :: s) := fun q => h (isPrefixOf_iff.mpr q)
      refine ⟨?_, ?_⟩
      · intro e
        have e' : strstr pat s = none := by simpa using e
        rw [replace_skip h', ih.1 e']
      · intro k hk
        cases hs : strstr pat s with
        | none => rw [hs] at hk; simp at hk
        | some j =>
          rw [hs] at hk
          simp at hk
          subst hk
          obtain ⟨h1, h2⟩ := ih.2 j hs
          refine ⟨by simp; omega, ?_⟩
          rw [replace_skip h', h2]
          have e : j + 1 + pat.length = (j + pat.length) + 1 := by omega
          rw [e]
          simp

theorem pat_pos {pat : List Byte} (hp : pat ≠ []) : 0 < pat.length :=
  List.length_pos_iff.mpr hp

theorem count_run {pat : List Byte} (rep : List Byte) (hp : pat ≠ []) :
    ∀ (fuel : Nat) (ori : List Byte) (cnt : Nat), ori.length < fuel →
      ∃ c, countLoop pat fuel ori cnt = some (cnt + c) ∧
        (Spec.replace pat rep ori).length + c * pat.length = ori.length + c * rep.length ∧
        c * pat.length ≤ ori.length := by
  intro fuel
  induction fuel with
  | zero => intro ori cnt h; omega
  | succ fuel ih =>
    intro ori cnt hf
    unfold countLoop
    obtain ⟨hn, hs⟩ := strstr_replace rep hp ori
    cases hk : strstr pat ori with
    | none =>
      refine ⟨0, rfl, ?_, by omega⟩
      rw [hn hk]; simp
    | some k =>
      obtain ⟨h1, h2⟩ := hs k hk
      have := pat_pos hp
      obtain ⟨c, h3, h4, h5⟩ := ih (ori.drop (k + pat.length)) (cnt + 1) (by simp; omega)
      refine ⟨c + 1, ?_, ?_, ?_⟩
      · simp only
        rw [h3]; congr 1; omega
      · rw [h2]
        simp only [List.length_append, List.length_take, List.length_drop, Nat.add_mul,
          Nat.one_mul] at h4 ⊢
        omega
      · simp only [List.length_drop, Nat.add_mul, Nat.one_mul] at h5 ⊢
        omega

theorem fill_run {pat rep : List Byte} (hp : pat ≠ []) (blk : Mem) :
    ∀ (fuel : Nat) (ori w : List Byte), ori.length < fuel →
      w.length + (Spec.replace pat rep ori).length + 1 ≤ blk.length →
      fillLoop pat rep fuel ori (blk.front w) w.length =
        some (blk.front (w ++ Spec.replace pat rep ori ++ [0])) := by
  intro fuel
  induction fuel with
  | zero => intro ori w h; omega
  | succ fuel ih =>
    intro ori w hf hroom
    unfold fillLoop
    obtain ⟨hn, hs⟩ := strstr_replace rep hp ori
    cases hk : strstr pat ori with
    | none =>
      rw [hn hk] at hroom ⊢
      simp only
      rw [Mem.store_front _ (by simp; omega)]
      simp
    | some k =>
      obtain ⟨h1, h2⟩ := hs k hk
      rw [h2] at hroom
      simp only [List.length_append, List.length_take] at hroom
      have hk' : min k ori.length = k := by omega
      rw [hk'] at hroom
      simp only
      rw [Mem.store_front _ (by simp; omega)]
      simp only
      rw [Mem.store_front' _ (by simp; omega) (by simp; omega)]
      simp only
      have := pat_pos hp
      have h3 := ih (ori.drop (k + pat.length)) (w ++ ori.take k ++ rep) (by simp; omega)
        (by simp only [List.length_append, List.length_take]; omega)
      have e : (w ++ ori.take k ++ rep).length = w.length + k + rep.length := by simp; omega
      rw [e] at h3
      rw [h3, h2]
      simp

theorem retLen_eq {ori cnt rep pat L : Nat} (h : L + cnt * pat = ori + cnt * rep)
    (hL : L < 2 ^ 64) (hr : rep < 2 ^ 64) (hp : pat < 2 ^ 64) :
    retLen ori cnt rep pat = L := by
  unfold retLen
  by_cases hc : pat ≤ rep
  · have e : (rep + 2 ^ 64 - pat) % 2 ^ 64 = rep - pat := by
      have : rep + 2 ^ 64 - pat = (rep - pat) + 2 ^ 64 := by omega
      rw [this, Nat.add_mod_right, Nat.mod_eq_of_lt (by omega)]
    rw [e, Nat.mul_sub]
    have : cnt * pat ≤ cnt * rep := Nat.mul_le_mul_left _ hc
    rw [show ori + (cnt * rep - cnt * pat) = L by omega, Nat.mod_eq_of_lt hL]
  · have e : (rep + 2 ^ 64 - pat) % 2 ^ 64 = 2 ^ 64 - (pat - rep) := by
      rw [Nat.mod_eq_of_lt (by omega)]; omega
    rw [e, Nat.mul_sub, Nat.mul_sub]
    have h1 : cnt * rep ≤ cnt * pat := Nat.mul_le_mul_left _ (by omega)
    have h2 : cnt * (pat - rep) ≤ cnt * 2 ^ 64 := Nat.mul_le_mul_left _ (by omega)
    rw [Nat.mul_sub] at h2
    have e2 : ori + (cnt * 2 ^ 64 - (cnt * pat - cnt * rep)) = L + cnt * 2 ^ 64 := by omega
    rw [e2, Nat.add_mul_mod_self_right, Nat.mod_eq_of_lt hL]

/-- C29: for every non-empty pattern both passes terminate, and — whatever was in the block `malloc`
returned — the returned block is exactly the replaced string and its NUL (so the size computed with
wrapping `size_t` arithmetic is exactly sufficient, and no write leaves the block); if `malloc` fails
NULL is returned. -/
theorem strreplace_spec (ori pat rep : List Byte) (mem : Nat → Option Mem) (fuel : Nat)
    (hp : pat ≠ []) (hf : ori.length < fuel)
    (hm : ∀ k b, mem k = some b → b.length = k)
    (hL : (Spec.replace pat rep ori).length + 1 < 2 ^ 64)
    (hr : rep.length < 2 ^ 64) (hpl : pat.length < 2 ^ 64) :
    strreplace fuel ori pat rep mem =
      some ((mem ((Spec.replace pat rep ori).length + 1)).map
        fun _ => Spec.replace pat rep ori ++ [0]) := by
  obtain ⟨c, h1, h2, _⟩ := count_run rep hp fuel ori 0 hf
  unfold strreplace
  rw [h1, Nat.zero_add]
  simp only
  rw [retLen_eq h2 (by omega) hr hpl, Nat.mod_eq_of_lt hL]
  cases hb : mem ((Spec.replace pat rep ori).length + 1) with
  | none => rfl
  | some b =>
    have hl := hm _ _ hb
    simp only
    unfold Mem.poke
    rw [if_pos (by omega)]
    simp only
    have hfr := fill_run (rep := rep) hp (b.set 0 0) fuel ori [] hf (by simp; omega)
    rw [Mem.front_nil, List.length_nil] at hfr
    rw [hfr]
    simp only [Option.map_some, List.nil_append]
    rw [Mem.front_full (by simp; omega)]

/-- Every occurrence is gone unless the replacement re-creates it: with a replacement-free result the
string without occurrences is returned unchanged. -/
theorem replace_absent {pat rep s : List Byte} (hp : pat ≠ []) (h : strstr pat s = none) :
    Spec.replace pat rep s = s := (strstr_replace rep hp s).1 h

/-- FINDING: an empty pattern never terminates (for every original string). -/
theorem strreplace_empty_pattern_diverges (ori rep : List Byte) (mem : Nat → Option Mem) :
    ∀ fuel, strreplace fuel ori [] rep mem = none := by
  have h : ∀ (fuel : Nat) (o : List Byte) (cnt : Nat), countLoop [] fuel o cnt = none := by
    intro fuel
    induction fuel with
    | zero => intro o cnt; rfl
    | succ fuel ih =>
      intro o cnt
      unfold countLoop
      have : strstr [] o = some 0 := by cases o <;> simp [strstr]
      rw [this]
      simp [ih]
  intro fuel
  unfold strreplace
  rw [h]

/-- "aXXaaX" with "aX" replaced: the overlapping cases. -/
example : strreplace 20 [97, 97, 97, 98] [97, 97] [99] (fun k => some (List.replicate k 7)) =
    some (some [99, 97, 98, 0]) := by decide +kernel
example : strreplace 20 [97, 98, 97] [97] [120, 121, 122] (fun k => some (List.replicate k 7)) =
    some (some [120, 121, 122, 98, 120, 121, 122, 0]) := by decide +kernel

end Verif.Strings
